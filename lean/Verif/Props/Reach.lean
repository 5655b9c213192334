import Verif.Reach
import Verif.Reached
import Verif.SccGraph
import Verif.Props.Progression
import Verif.Props.MinImplied
import Mathlib.Data.Fintype.EquivFin
import Mathlib.Data.Fintype.Pigeonhole

/-! # Properties C14, C32, C47: components, cyclicity, reachability sets -/

namespace Verif.Props

open Verif.Htn Verif.Prog Verif.IntSets Verif.Reach Verif.Scc Relation

/-! ## C32 -/

section
variable {N : Nat} {adj : Nat → List Nat}

/-- C32, for the tasks: if all tasks can be reached from the initial task, `calcSCCs` ends normally, gives every
task a component, and two tasks have the same one iff they reach each other; the arrays describe the
components. -/
theorem C32_task_components (hadj : ∀ v < N, ∀ w ∈ adj v, w < N) (junk : Nat → Nat) {init : Nat} (hi : init < N)
    (hall : ∀ t < N, ReflTransGen (fun x y => y ∈ adj x) init t) :
    ∃ S, calcSccs N adj junk init = some S ∧
      (∀ t < N, ∃ k < S.num, S.scc t = some k) ∧
      (∀ k < S.num, ∃ t < N, S.scc t = some k) ∧
      (∀ t < N, ∀ t' < N, S.scc t = S.scc t' ↔
        ReflTransGen (fun x y => y ∈ adj x) t t' ∧ ReflTransGen (fun x y => y ∈ adj x) t' t) ∧
      (∀ k t, t ∈ S.tasks k ↔ t < N ∧ S.scc t = some k) ∧ (∀ k, (S.tasks k).Pairwise (· < ·)) ∧
      (∀ k, k ∈ S.cyclic ↔ ∃ t < N, S.scc t = some k ∧ TransGen (fun x y => y ∈ adj x) t t) ∧
      S.numCyclic = S.cyclic.length ∧ S.cyclic.Nodup := by
  obtain ⟨S, e, h⟩ := calcSccs_spec hadj junk hi hall
  refine ⟨S, e, fun t ht => ?_, fun k hk => ?_, fun t ht t' ht' => ?_, fun k t => ?_, fun k => ?_, fun k => ?_,
    h.numCyclic, h.nodup⟩
  · obtain ⟨k, hk⟩ := h.get ht
    exact ⟨k, h.ok.lt _ _ hk, hk⟩
  · obtain ⟨t, ht⟩ := h.ok.surj k hk
    exact ⟨t, h.lt ht, ht⟩
  · obtain ⟨k, hk⟩ := h.get ht
    obtain ⟨l, hl⟩ := h.get ht'
    rw [← h.ok.eq t t' k l hk hl, hk, hl]
    simp
  · rw [h.mem_tasks]
    exact ⟨fun hh => ⟨h.lt hh, hh⟩, fun hh => hh.2⟩
  · rw [h.tasks k]
    exact List.Pairwise.filter _ List.pairwise_lt_range
  · rw [h.cyclic k]
    exact ⟨fun ⟨t, h1, h2⟩ => ⟨t, h.lt h1, h1, h2⟩, fun ⟨t, _, h1, h2⟩ => ⟨t, h1, h2⟩⟩

/-- C32, for disabling graphs: the same for every graph. -/
theorem C32_graph_components (hadj : ∀ v < N, ∀ w ∈ adj v, w < N) (junk : Nat → Nat) :
    ∃ s c, calcSccsAll N adj junk = some (s, c) ∧
      (∀ t < N, ∃ k < s.num, s.scc t = some k) ∧
      (∀ k < s.num, ∃ t < N, s.scc t = some k) ∧
      (∀ t < N, ∀ t' < N, s.scc t = s.scc t' ↔
        ReflTransGen (fun x y => y ∈ adj x) t t' ∧ ReflTransGen (fun x y => y ∈ adj x) t' t) ∧
      (∀ k t, t ∈ c.tasks k ↔ t < N ∧ s.scc t = some k) ∧ (∀ k, (c.tasks k).Pairwise (· < ·)) := by
  obtain ⟨s, e, h⟩ := tarjan_all hadj junk
  obtain ⟨c, e2, hc⟩ := fillComps_spec (scc := s.scc) (List.range N) ⟨fun _ => [], 0⟩
    fun v hv => (h.some_iff v).2 (by simpa using hv)
  have hget : ∀ t < N, ∃ k, s.scc t = some k := fun t ht => by
    have := (h.some_iff t).2 ht
    cases hk : s.scc t with
    | some k => exact ⟨k, rfl⟩
    | none => exact absurd hk this
  have hc' : ∀ k, c.tasks k = (List.range N).filter fun t => s.scc t == some k := fun k => by rw [hc k]; simp
  refine ⟨s, c, by simp [calcSccsAll, e, e2], fun t ht => ?_, fun k hk => ?_, fun t ht t' ht' => ?_, fun k t => ?_,
    fun k => ?_⟩
  · obtain ⟨k, hk⟩ := hget t ht
    exact ⟨k, h.lt _ _ hk, hk⟩
  · obtain ⟨t, ht⟩ := h.surj k hk
    exact ⟨t, (h.some_iff t).1 (by simp [ht]), ht⟩
  · obtain ⟨k, hk⟩ := hget t ht
    obtain ⟨l, hl⟩ := hget t' ht'
    rw [← h.eq t t' k l hk hl, hk, hl]
    simp
  · rw [hc' k]; simp
  · rw [hc' k]
    exact List.Pairwise.filter _ List.pairwise_lt_range

/-- Components are numbered bottom-up: an edge leads to the same or a smaller number. -/
theorem C32_numbers_bottom_up (hadj : ∀ v < N, ∀ w ∈ adj v, w < N) (junk : Nat → Nat) {s c}
    (h : calcSccsAll N adj junk = some (s, c)) {t t' k k' : Nat} (ht : t' ∈ adj t) (hk : s.scc t = some k)
    (hk' : s.scc t' = some k') : k' ≤ k := by
  obtain ⟨s1, e, h1⟩ := tarjan_all hadj junk
  simp only [calcSccsAll, e, Option.bind_eq_bind, Option.bind_some, Option.bind_eq_some_iff] at h
  obtain ⟨c', -, h⟩ := h
  cases h
  exact h1.top t t' k k' hk hk' (.single ht)

/-- The behaviour of `calcSCCs` is undefined whenever the model has a task that cannot be obtained from the initial
one. -/
theorem C32_unreachable_task_undefined (hadj : ∀ v < N, ∀ w ∈ adj v, w < N) (junk : Nat → Nat) {init t : Nat}
    (hi : init < N) (ht : t < N) (hn : ¬ ReflTransGen (fun x y => y ∈ adj x) init t) :
    calcSccs N adj junk init = none :=
  calcSccs_ub hadj junk hi ht hn

/-! ## C47 -/

theorem chain_of_cycle {x : Nat} (h : ∃ u, R adj x u ∧ TransGen (fun x y => y ∈ adj x) u u) :
    ∃ f : Nat → Nat, f 0 = x ∧ ∀ i, f (i + 1) ∈ adj (f i) := by
  have step : ∀ x : { x // ∃ u, R adj x u ∧ TransGen (fun x y => y ∈ adj x) u u },
      ∃ y : { x // ∃ u, R adj x u ∧ TransGen (fun x y => y ∈ adj x) u u }, y.1 ∈ adj x.1 := by
    rintro ⟨x, u, h1, h2⟩
    rcases ReflTransGen.cases_head h1 with rfl | ⟨y, hy, h3⟩
    · obtain ⟨y, hy, h3⟩ := TransGen.head'_iff.1 h2
      exact ⟨⟨y, x, h3, h2⟩, hy⟩
    · exact ⟨⟨y, u, h3, h2⟩, hy⟩
  choose g hg using step
  exact ⟨fun i => (Nat.rec ⟨x, h⟩ (fun _ y => g y) i : { x // ∃ u, R adj x u ∧ TransGen (fun x y => y ∈ adj x) u u }).1,
    rfl, fun i => hg _⟩

theorem cycle_of_chain (hadj : ∀ v < N, ∀ w ∈ adj v, w < N) {f : Nat → Nat} (h0 : f 0 < N)
    (hf : ∀ i, f (i + 1) ∈ adj (f i)) : ∃ u, R adj (f 0) u ∧ TransGen (fun x y => y ∈ adj x) u u := by
  have hlt : ∀ i, f i < N := by
    intro i
    induction i with
    | zero => exact h0
    | succ i ih => exact hadj _ ih _ (hf i)
  have hreach : ∀ i k, R adj (f i) (f (i + k)) := by
    intro i k
    induction k with
    | zero => exact .refl
    | succ k ih => exact ih.tail (hf (i + k))
  have hpos : ∀ i j, i < j → f i = f j → ∃ u, R adj (f 0) u ∧ TransGen (fun x y => y ∈ adj x) u u := by
    intro i j hij hne
    refine ⟨f i, by have := hreach 0 i; rwa [Nat.zero_add] at this, TransGen.head'_iff.2 ⟨f (i + 1), hf i, ?_⟩⟩
    have := hreach (i + 1) (j - (i + 1))
    rw [show i + 1 + (j - (i + 1)) = j by omega, ← hne] at this
    exact this
  obtain ⟨i, j, hij, he⟩ := Finite.exists_ne_map_eq_of_infinite fun i => (⟨f i, hlt i⟩ : Fin N)
  have he : f i = f j := by simpa using he
  rcases Nat.lt_or_gt_of_ne hij with h | h
  · exact hpos i j h he
  · exact hpos j i h he.symm

/-- C47: a task's component is marked as acyclic iff there is no infinite sequence of decompositions that starts
with the task. -/
theorem C47_acyclic_iff_no_infinite_chain (hadj : ∀ v < N, ∀ w ∈ adj v, w < N) (junk : Nat → Nat) {init : Nat}
    (hi : init < N) (hall : ∀ t < N, ReflTransGen (fun x y => y ∈ adj x) init t) {t k : Nat} {S : Sccs}
    (hS : calcSccs N adj junk init = some S) (hk : S.scc t = some k) :
    sccAcyclic N adj S k = true ↔ ¬ ∃ f : Nat → Nat, f 0 = t ∧ ∀ i, f (i + 1) ∈ adj (f i) := by
  obtain ⟨S', e, h⟩ := calcSccs_spec hadj junk hi hall
  rw [hS] at e
  cases e
  rw [sccAcyclic_spec hadj h hk]
  constructor
  · rintro hh ⟨f, rfl, hf⟩
    obtain ⟨u, h1, h2⟩ := cycle_of_chain hadj (h.lt hk) hf
    exact hh u h1 h2
  · intro hh u h1 h2
    exact hh (chain_of_cycle ⟨u, h1, h2⟩)

end

/-! ## C14 -/

/-- The edges that `tarjan` follows: the subtasks of all methods (src/Model.cpp 2364-2367). -/
def taskAdj (P : Problem) (t : Nat) : List Nat := (methodsOf P t).flatMap P.sub

theorem mem_taskAdj {P : Problem} {a b : Nat} : b ∈ taskAdj P a ↔ SubOf P a b := by
  simp only [taskAdj, List.mem_flatMap, methodsOf, List.mem_filter, List.mem_range, beq_iff_eq, SubOf]
  exact ⟨fun ⟨m, ⟨h1, h2⟩, h3⟩ => ⟨m, h1, h2, h3⟩, fun ⟨m, h1, h2, h3⟩ => ⟨m, ⟨h1, h2⟩, h3⟩⟩

theorem R_iff {P : Problem} {a b : Nat} : R (taskAdj P) a b ↔ TaskReach P a b := by
  have : (fun x y => y ∈ taskAdj P x) = SubOf P := by
    funext x y
    exact propext mem_taskAdj
  unfold R TaskReach
  rw [this]

/-- Tasks are numbered below `nT`, and all of them can be obtained from the initial task. -/
structure TasksOK (P : Problem) (nT : Nat) : Prop where
  init_lt : P.init < nT
  sub_lt : ∀ m < P.numMethods, ∀ t ∈ P.sub m, t < nT
  reach : ∀ t < nT, TaskReach P P.init t

variable {P : Problem} {cfg : Cfg} {nT : Nat}

theorem TasksOK.adj_lt (h : TasksOK P nT) : ∀ v < nT, ∀ w ∈ taskAdj P v, w < nT := by
  intro v _ w hw
  obtain ⟨m, hm, -, hw⟩ := mem_taskAdj.1 hw
  exact h.sub_lt m hm w hw

theorem TasksOK.lt (h : TasksOK P nT) {t : Nat} (ht : TaskReach P P.init t) : t < nT := by
  induction ht with
  | refl => exact h.init_lt
  | tail _ hbc ih => exact h.adj_lt _ ih _ (mem_taskAdj.2 hbc)

/-- C14, the table: for every task the array `reachable` contains, ascending, exactly the tasks numbered below
`last` that can be obtained from it by repeated decomposition. -/
theorem C14_table (hT : TasksOK P nT) (junk : Nat → Nat) (last : Nat) :
    ∃ S Rt, calcSccs nT (taskAdj P) junk P.init = some S ∧ reachTable nT (taskAdj P) last S = some Rt ∧
      ∀ t < nT, ∃ l, Rt t = some l ∧ l.Pairwise (· < ·) ∧ ∀ t', t' ∈ l ↔ t' < last ∧ TaskReach P t t' := by
  obtain ⟨S, e, h⟩ := calcSccs_spec hT.adj_lt junk hT.init_lt fun t ht => R_iff.2 (hT.reach t ht)
  obtain ⟨Rt, e2, h2⟩ := reachTable_spec hT.adj_lt h last
  refine ⟨S, Rt, e, e2, fun t ht => ?_⟩
  obtain ⟨l, hl, h3, h4⟩ := h2 t ht
  exact ⟨l, hl, h3, fun t' => by rw [h4, R_iff]⟩

/-- The stored sets during a run: calls of `updateReachability` for reached networks, between calls of `apply` and
`decompose` that extend the set of steps. -/
inductive Calls (P : Problem) (cfg : Cfg) (last : Nat) (Rt : Nat → Option (List Nat)) : Glob → RSt → Prop
  | start : Calls P cfg last Rt (initNode P cfg).1 ⟨fun _ => none, NoDel.init last⟩
  | call {g st n f st'} : Calls P cfg last Rt g st → Reached P cfg g n → g.heap.length < f →
      updateReach Rt g.heap f st n = some st' → Calls P cfg last Rt g st'
  | app {g st n f i u g' n'} : Calls P cfg last Rt g st → Reached P cfg g n → n.prims[i]? = some u →
      isApplicable P n.state (taskOf g.heap u) = true → apply P cfg f g n i = some (g', n') → Calls P cfg last Rt g' st
  | dec {g st n f j u m g' n'} : Calls P cfg last Rt g st → Reached P cfg g n → n.abs[j]? = some u →
      m ∈ methodsOf P (taskOf g.heap u) → decompose P cfg f g n j m = some (g', n') → Calls P cfg last Rt g' st

theorem Reached.liveTasks (hP : P.WF) (hcfg : cfg.Ok) {g n} (h : Reached P cfg g n) : LiveTasks P g.heap n := by
  induction h with
  | init => exact init_liveTasks
  | app hr hu ha h ih =>
    exact apply_liveTasks hP hcfg (Reached.ninv hP hcfg hr).good hu (isApplicable_iff.1 ha) h ih
  | dec hr hu hm h ih => exact decompose_liveTasks hP hcfg (Reached.ninv hP hcfg hr).good hu hm h ih
  | otherApp hr ho hu ha h ih iho =>
    obtain ⟨e1, -⟩ := apply_step hP hcfg (Reached.ninv hP hcfg ho) hu (isApplicable_iff.1 ha) h
    rw [e1]; exact ih
  | otherDec hr ho hu hm h ih iho =>
    obtain ⟨e1, e2, -⟩ := decompose_step hP hcfg (Reached.ninv hP hcfg ho) hu hm h
    have hg := (Reached.ninv hP hcfg hr).good
    exact ih.ext e1 hg.heap e2 fun u hu => hg.node.lt u hu

/-- The steps of a reached network and the table. -/
theorem tableOK (hP : P.WF) (hcfg : cfg.Ok) (hT : TasksOK P nT) {last : Nat} {Rt : Nat → Option (List Nat)}
    (hR : ∀ t < nT, ∃ l, Rt t = some l ∧ l.Pairwise (· < ·) ∧ ∀ t', t' ∈ l ↔ t' < last ∧ TaskReach P t t') {g n}
    (h : Reached P cfg g n) :
    TableOK g.heap (· ∈ live g.heap n) Rt (fun a b => b < last ∧ TaskReach P a b) last := by
  have hg := (Reached.ninv hP hcfg h).good
  refine ⟨fun u hu => live_lt hu, fun u v hu he => ?_, fun u hu => ?_⟩
  · rw [mem_live hg.heap (fun w hw => hg.node.lt w hw)] at hu ⊢
    obtain ⟨w, hw, hr⟩ := hu
    exact ⟨w, hw, hr.tail he⟩
  · obtain ⟨l, h1, -, h2⟩ := hR _ (hT.lt (Reached.liveTasks hP hcfg h u hu))
    exact ⟨l, h1, fun t ht => ((h2 t).1 ht).1, h2⟩

theorem Calls.inv (hP : P.WF) (hcfg : cfg.Ok) (hT : TasksOK P nT) {last : Nat} {Rt : Nat → Option (List Nat)}
    (hR : ∀ t < nT, ∃ l, Rt t = some l ∧ l.Pairwise (· < ·) ∧ ∀ t', t' ∈ l ↔ t' < last ∧ TaskReach P t t') {g st}
    (h : Calls P cfg last Rt g st) : RInv g.heap (fun a b => b < last ∧ TaskReach P a b) last st := by
  induction h with
  | start =>
    refine ⟨fun u l h => by simp at h, ⟨by simp [NoDel.init], ?_⟩, by simp [NoDel.init]⟩
    intro e
    simp [NoDel.init, List.getElem?_replicate]
  | call _ hr hf h ih =>
    have hg := (Reached.ninv hP hcfg hr).good
    obtain ⟨st', e, hp, -⟩ := updateReach_spec hg.heap (tableOK hP hcfg hT hR hr)
      (fun u hu => (hg.node.first_min hg.heap hu).1) ih hf
    rw [h] at e
    cases e
    exact hp.inv
  | app _ hr hu ha h ih =>
    obtain ⟨e1, -⟩ := apply_step hP hcfg (Reached.ninv hP hcfg hr) hu (isApplicable_iff.1 ha) h
    rw [e1]; exact ih
  | dec _ hr hu hm h ih =>
    obtain ⟨e1, e2, -⟩ := decompose_step hP hcfg (Reached.ninv hP hcfg hr) hu hm h
    exact { ih with cache := ih.cache.ext e1 (Reached.ninv hP hcfg hr).good.heap e2 }

/-- C14: whenever `updateReachability` is called for a reached network, it ends normally.  Afterwards every
unconstrained step `u` of the network has a set; a task is in it iff it is numbered below `last` and can be
obtained by repeated decomposition from the task of `u` or of a step that comes after `u`. -/
theorem C14_reachability_sets (hP : P.WF) (hcfg : cfg.Ok) (hT : TasksOK P nT) {junk : Nat → Nat} {last : Nat}
    {S : Sccs} {Rt : Nat → Option (List Nat)} (hS : calcSccs nT (taskAdj P) junk P.init = some S)
    (hRt : reachTable nT (taskAdj P) last S = some Rt) {g st n f} (hc : Calls P cfg last Rt g st)
    (hr : Reached P cfg g n) (hf : g.heap.length < f) :
    ∃ st', updateReach Rt g.heap f st n = some st' ∧ ∀ u ∈ n.firsts, ∃ l, st'.cache u = some l ∧ l.Nodup ∧
      ∀ t, t ∈ l ↔ t < last ∧ ∃ v, ReflTransGen (Edge g.heap) u v ∧ TaskReach P (taskOf g.heap v) t := by
  obtain ⟨S', Rt', e1, e2, hR⟩ := C14_table hT junk last
  rw [hS] at e1
  cases e1
  rw [hRt] at e2
  cases e2
  have hg := (Reached.ninv hP hcfg hr).good
  obtain ⟨st', e, hp, hv⟩ := updateReach_spec hg.heap (tableOK hP hcfg hT hR hr)
    (fun u hu => (hg.node.first_min hg.heap hu).1) (hc.inv hP hcfg hT hR) hf
  refine ⟨st', e, fun u hu => ?_⟩
  cases hl : st'.cache u with
  | none => exact absurd hl (hv u hu)
  | some l =>
    obtain ⟨-, h1, h2⟩ := hp.inv.cache u l hl
    refine ⟨l, rfl, h1, fun t => ?_⟩
    rw [h2]
    exact ⟨fun ⟨v, a, b, c⟩ => ⟨b, v, a, c⟩, fun ⟨b, v, a, c⟩ => ⟨v, a, b, c⟩⟩

/-- Sets computed earlier are still correct for the network of another node: they are not changed. -/
theorem C14_sets_kept (hP : P.WF) (hcfg : cfg.Ok) (hT : TasksOK P nT) {junk : Nat → Nat} {last : Nat}
    {S : Sccs} {Rt : Nat → Option (List Nat)} (hS : calcSccs nT (taskAdj P) junk P.init = some S)
    (hRt : reachTable nT (taskAdj P) last S = some Rt) {g st} (hc : Calls P cfg last Rt g st) {u l}
    (hl : st.cache u = some l) (t : Nat) :
    t ∈ l ↔ t < last ∧ ∃ v, ReflTransGen (Edge g.heap) u v ∧ TaskReach P (taskOf g.heap v) t := by
  obtain ⟨S', Rt', e1, e2, hR⟩ := C14_table hT junk last
  rw [hS] at e1
  cases e1
  rw [hRt] at e2
  cases e2
  rw [((hc.inv hP hcfg hT hR).cache u l hl).2.2 t]
  exact ⟨fun ⟨v, a, b, c⟩ => ⟨b, v, a, c⟩, fun ⟨b, v, a, c⟩ => ⟨v, a, b, c⟩⟩

/-! ## Examples -/

/-- A graph with a cycle of three vertices (1, 2, 3), one with a loop (4), and a vertex without edges (0). -/
def exAdj (v : Nat) : List Nat :=
  if v = 1 then [2, 0] else if v = 2 then [3, 2] else if v = 3 then [1, 0] else if v = 4 then [4, 1] else
  if v = 5 then [0, 4, 6] else if v = 6 then [0] else []

theorem exAdj_lt : ∀ v < 7, ∀ w ∈ exAdj v, w < 7 := by decide

theorem exAdj_reach : ∀ t < 7, ReflTransGen (fun x y => y ∈ exAdj x) 5 t := by
  have h4 : ReflTransGen (fun x y => y ∈ exAdj x) 5 4 := .single (by decide)
  have h1 := h4.tail (c := 1) (by decide)
  have h2 := h1.tail (c := 2) (by decide)
  intro t ht
  rcases (by omega : t = 0 ∨ t = 1 ∨ t = 2 ∨ t = 3 ∨ t = 4 ∨ t = 5 ∨ t = 6) with
    rfl | rfl | rfl | rfl | rfl | rfl | rfl
  · exact .single (by decide)
  · exact h1
  · exact h2
  · exact h2.tail (by decide)
  · exact h4
  · exact .refl
  · exact .single (by decide)

/-- The hypotheses of `C32_task_components` hold, and the components are as expected. -/
example : ((calcSccs 7 exAdj (fun _ => 17) 5).map fun S =>
    ((List.range 7).map S.scc, S.num, (List.range S.num).map S.tasks, S.cyclic, S.numCyclic)) =
    some ([some 0, some 1, some 1, some 1, some 2, some 4, some 3], 5, [[0], [1, 2, 3], [4], [6], [5]], [1, 2], 2) := by
  decide +kernel

/-- The vertices marked as acyclic, and the table. -/
example : ((calcSccs 7 exAdj (fun _ => 17) 5).bind fun S => (reachTable 7 exAdj 4 S).map fun Rt =>
    ((List.range S.num).map (sccAcyclic 7 exAdj S), (List.range 7).map Rt)) =
    some ([true, false, false, true, false],
      [some [0], some [0, 1, 2, 3], some [0, 1, 2, 3], some [0, 1, 2, 3], some [0, 1, 2, 3], some [0, 1, 2, 3],
        some [0]]) := by decide +kernel

/-- An unreachable task: without vertex 5 in the role of the initial task, 5 and 6 have no component. -/
example : calcSccs 7 exAdj (fun _ => 17) 4 = none := by decide +kernel

theorem prodP_tasks : TasksOK prodP 3 where
  init_lt := by decide
  sub_lt := by decide
  reach := by
    have h : ∀ t, t ∈ [0, 2] → TaskReach prodP prodP.init t := fun t ht => .single ⟨0, by decide, rfl, ht⟩
    intro t ht
    rcases (by omega : t = 0 ∨ t = 1 ∨ t = 2) with rfl | rfl | rfl
    · exact h 0 (by simp)
    · exact .refl
    · exact h 2 (by simp)

/-- The hypotheses of `C14_reachability_sets` hold for the initial network of a model with a recursive task, and
the set computed for its only step is as expected (all tasks maintained). -/
example : ∃ S Rt, calcSccs 3 (taskAdj prodP) (fun _ => 0) prodP.init = some S ∧
    reachTable 3 (taskAdj prodP) 3 S = some Rt ∧
    Calls prodP exCfg 3 Rt (initNode prodP exCfg).1 ⟨fun _ => none, NoDel.init 3⟩ ∧
    Reached prodP exCfg (initNode prodP exCfg).1 (initNode prodP exCfg).2 := by
  obtain ⟨S, Rt, h1, h2, -⟩ := C14_table prodP_tasks (fun _ => 0) 3
  exact ⟨S, Rt, h1, h2, .start, .init⟩

example : ((calcSccs 3 (taskAdj prodP) (fun _ => 0) prodP.init).bind fun S =>
    (reachTable 3 (taskAdj prodP) 3 S).bind fun Rt =>
      (updateReach Rt (initNode prodP exCfg).1.heap 5 ⟨fun _ => none, NoDel.init 3⟩ (initNode prodP exCfg).2).map
        fun st => st.cache 0) = some (some [0, 1, 2]) := by decide +kernel

end Verif.Props
