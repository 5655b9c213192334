import Verif.LandmarkHtn
import Verif.Props.Rc

/-! # Property C59: the landmarks of the AND/OR graph, and local landmarks -/

namespace Verif.Props

open Verif.Htn Verif.Prog Verif.TaskCounter Verif.Reach Verif.Rc Verif.AO Relation

variable {P : Problem} {cfg : Cfg} {nA nT : Nat} {g : Glob} {n : Node}

/-- `tr`, `occ`, `π` solve the node: `tr` decomposes its tasks, `π` linearises the result and leads from its state to the goal. -/
def Solution (P : Problem) (h : Heap) (n : Node) (tr : Nat → Tree) (π : List Nat) : Prop :=
  ∃ occ s', LinNet P (live h n) (taskOf h) (TransGen (Edge h)) tr occ π ∧ Exec P (holds n.state) π s' ∧ P.GoalState s'

theorem nodeSol_iff {h : Heap} {π : List Nat} : (∃ k, NodeSol P h n π k) ↔ ∃ tr, Solution P h n tr π := by
  constructor
  · rintro ⟨k, h1⟩
    obtain ⟨tr, occ, h2, -, s', h3, h4⟩ := solvesN_iff.1 h1
    exact ⟨tr, occ, s', h2, h3, h4⟩
  · rintro ⟨tr, occ, s', h2, h3, h4⟩
    exact ⟨_, solvesN_iff.2 ⟨tr, occ, h2, rfl, s', h3, h4⟩⟩

theorem live_lt (hI : RcInput P cfg nA nT) (hr : Reached P cfg g n) : ∀ u ∈ live g.heap n, taskOf g.heap u < nT :=
  fun u hu => hI.tasks.lt (Reached.liveTasks hI.wf hI.cfg hr u hu)

theorem Met.lt {s : State} {π : List Nat} {I : Finset Nat} {tr : Nat → Tree} {x : Nat} (h : Met P nT s π I tr x) :
    x < P.numFacts + nT + P.numMethods := by
  rcases h with ⟨f, hf, rfl, -⟩ | ⟨t, ht, rfl, -⟩ | ⟨m, hm, rfl, -⟩
  · omega
  · unfold tN; omega
  · unfold mN; omega

/-! ## C59: `LMsInAndOrGraphs` -/

/-- C59: whatever entry the heap returns, the propagation stops; the sets that are returned contain exactly the facts, tasks and
methods that occur in every derivation of some goal fact or some task of the network from the initial facts. -/
theorem C59_andor_exact (hI : RcInput P cfg nA nT) (hr : Reached P cfg g n) (pick : List (Nat × Nat) → Nat) :
    ∃ F, ∀ fuel, F ≤ fuel → ∃ r, genAndOr P nA nT pick fuel g.heap n = some r ∧
      (∀ f, f ∈ r.f ↔ f < P.numFacts ∧ ∃ x, Root P g.heap n x ∧ IsLm (lmGraph P nA nT) x f) ∧
      (∀ t, t ∈ r.t ↔ t < nT ∧ ∃ x, Root P g.heap n x ∧ IsLm (lmGraph P nA nT) x (tN P t)) ∧
      (∀ m, m ∈ r.m ↔ ∃ x, Root P g.heap n x ∧ IsLm (lmGraph P nA nT) x (mN P nT m)) :=
  let hg := (Reached.ninv hI.wf hI.cfg hr).good
  genAndOr_spec hI.wf hI.rc pick hg.heap hg.node (live_lt hI hr)

/-- C59: landmarks computed for a node in which no fact holds that does not hold initially (the initial node, or a node reached by
decompositions only) occur in every solution: facts hold at some time, tasks and methods occur in the decomposition. -/
theorem C59_andor_sound (hI : RcInput P cfg nA nT) (hr : Reached P cfg g n) (hs : ∀ f, holds n.state f → f ∈ P.s0)
    {pick : List (Nat × Nat) → Nat} {fuel : Nat} {r : LmSets} (h : genAndOr P nA nT pick fuel g.heap n = some r)
    {tr : Nat → Tree} {π : List Nat} (hsol : Solution P g.heap n tr π) :
    (∀ f ∈ r.f, FactIn P (holds n.state) π f) ∧ (∀ t ∈ r.t, ∃ u ∈ live g.heap n, TaskIn P (tr u) t) ∧
      ∀ m ∈ r.m, ∃ u ∈ live g.heap n, Uses P (tr u) m := by
  obtain ⟨F, hF⟩ := C59_andor_exact hI hr pick
  obtain ⟨r', h', h1, h2, h3⟩ := hF (max F fuel) (by omega)
  have he : r' = r := by
    unfold genAndOr at h h'
    split at h
    · rename_i s ps e1 e2
      rw [lmLoop_mono _ _ _ e1 (max F fuel) (by omega)] at h'
      have : ∃ ps', tnLoop g.heap (max F fuel) (n.prims ++ n.abs).reverse [] = some ps' := by
        cases e : tnLoop g.heap (max F fuel) (n.prims ++ n.abs).reverse [] with
        | none => rw [e] at h'; simp at h'
        | some x => exact ⟨x, rfl⟩
      obtain ⟨ps', e3⟩ := this
      have : ps' = ps := by
        have := tnLoop_mono (h := g.heap) _ _ _ _ e2 (max F fuel) (by omega)
        rw [e3] at this
        exact (Option.some.inj this)
      rw [e3, this] at h'
      simp only [Option.some.injEq] at h h'
      rw [← h, ← h']
    · simp at h
  subst he
  obtain ⟨occ, s', hl, hex, hgo⟩ := hsol
  have hm : ∀ x y, Root P g.heap n y → IsLm (lmGraph P nA nT) y x → Met P nT (holds n.state) π (live g.heap n) tr x := by
    intro x y hy hlm
    obtain ⟨k1, k2⟩ := landmarks_met (x := x) (lm_covers hI.wf hI.rc hs) hI.wf hI.rc (live_lt hI hr) hl hex hgo (fun _ _ _ _ => trivial)
      (fun _ _ _ _ => trivial) (fun _ _ => .inl trivial)
    rcases hy with hy | ⟨u, hu, rfl⟩
    · exact k2 y hy hlm.2
    · exact k1 u hu hlm.2
  refine ⟨fun f hf => ?_, fun t ht => ?_, fun m hmm => ?_⟩
  · obtain ⟨hlt, x, hx, hlm⟩ := (h1 f).1 hf
    rcases hm f x hx hlm with ⟨f', -, rfl, h⟩ | ⟨t, -, e, -⟩ | ⟨m, -, e, -⟩
    · exact h
    · unfold tN at e; omega
    · unfold mN at e; omega
  · obtain ⟨hlt, x, hx, hlm⟩ := (h2 t).1 ht
    rcases hm _ x hx hlm with ⟨f, hf, e, h⟩ | ⟨t', -, e, h⟩ | ⟨m, -, e, -⟩
    · unfold tN at e; omega
    · obtain rfl : t = t' := by unfold tN at e; omega
      exact h
    · unfold tN mN at e; omega
  · obtain ⟨x, hx, hlm⟩ := (h3 m).1 hmm
    rcases hm _ x hx hlm with ⟨f, hf, e, h⟩ | ⟨t', ht', e, h⟩ | ⟨m', -, e, h⟩
    · unfold mN at e; omega
    · unfold tN mN at e; omega
    · obtain rfl : m = m' := by unfold mN at e; omega
      exact h

/-! ## C59: `LmCausal` -/

/-- A planning graph (or none: `reach` is `true` everywhere) leaves out nothing of a solution. -/
structure PgKeeps (P : Problem) (nT : Nat) (h : Heap) (n : Node) (reach : Nat → Bool) (tr : Nat → Tree) : Prop where
  task : ∀ u ∈ live h n, ∀ t, TaskIn P (tr u) t → reach (tN P t) = true
  meth : ∀ u ∈ live h n, ∀ m, Uses P (tr u) m → reach (mN P nT m) = true
  goal : ∀ f ∈ P.goal, reach f = true ∨ holds n.state f

/-- C59: the other implementation, which takes the facts of the node's state as given.  If the node has a solution of which the planning
graph leaves out nothing, then the computation stops without an access outside the arrays, for every content left in the arrays
and every order in which the heaps return entries with equal or different keys; the set that is returned contains exactly the
facts, tasks and methods that occur in every derivation, within the planning graph, of some goal fact or task of the network, and all
of them occur in every solution of which the planning graph leaves out nothing. -/
theorem C59_causal (hI : RcInput P cfg nA nT) (hr : Reached P cfg g n) {srt : (Nat → Nat) → List Nat → List Nat} (hsrt : SortOK srt)
    (pick : List (Nat × Nat) → Nat) (key : AoNode → Nat → Nat) {reach : Nat → Bool} (old : Nat → List Int)
    (hpg : PgOK P nA nT (fun f => n.state[f]?.getD false) reach)
    (hsol : ∃ tr π, Solution P g.heap n tr π ∧ PgKeeps P nT g.heap n reach tr) :
    ∃ F r, (∀ fuel, F ≤ fuel → calcLms P nA nT srt pick key reach old fuel n = .done r) ∧
      (∀ x, x ∈ r ↔ ∃ y, Root P g.heap n y ∧ ¬ Der (restr (causalGraph P nA nT) (fun f => n.state[f]?.getD false) reach) (· = x) y) ∧
      ∀ tr π, Solution P g.heap n tr π → PgKeeps P nT g.heap n reach tr →
        ∀ x ∈ r, Met P nT (holds n.state) π (live g.heap n) tr x := by
  have hg := (Reached.ninv hI.wf hI.cfg hr).good
  have hcov := causal_covers (s := holds n.state) hI.wf hI.rc hpg (fun f => by
    unfold holds
    cases n.state[f]? <;> simp)
  have hm : ∀ tr π, Solution P g.heap n tr π → PgKeeps P nT g.heap n reach tr → ∀ x y, Root P g.heap n y →
      ¬ Der (restr (causalGraph P nA nT) (fun f => n.state[f]?.getD false) reach) (· = x) y → Met P nT (holds n.state) π (live g.heap n) tr x := by
    rintro tr π ⟨occ, s', hl, hex, hgo⟩ hk x y hy hlm
    obtain ⟨k1, k2⟩ := landmarks_met (x := x) hcov hI.wf hI.rc (live_lt hI hr) hl hex hgo hk.task hk.meth hk.goal
    rcases hy with hy | ⟨u, hu, rfl⟩
    · exact k2 y hy hlm
    · exact k1 u hu hlm
  obtain ⟨tr, π, hs, hk⟩ := hsol
  obtain ⟨F, r, h1, h2⟩ := calcLms_spec hI.wf hI.rc hsrt pick key old (hg.counter hI.track) hpg fun y hy => by
    by_contra hd
    have := hm tr π hs hk (P.numFacts + nT + P.numMethods) y hy fun h => hd (h.anti fun _ h => h.elim)
    exact absurd (Met.lt this) (by omega)
  exact ⟨F, r, h1, h2, fun tr π hs hk x hx => by
    obtain ⟨y, hy, hlm⟩ := (h2 x).1 hx
    exact hm tr π hs hk x y hy hlm⟩

/-- C59: without a planning graph nothing is left out. -/
theorem C59_causal_nopg (hI : RcInput P cfg nA nT) (hr : Reached P cfg g n) {srt : (Nat → Nat) → List Nat → List Nat} (hsrt : SortOK srt)
    (pick : List (Nat × Nat) → Nat) (key : AoNode → Nat → Nat) (old : Nat → List Int) (hsol : ∃ π k, NodeSol P g.heap n π k) :
    ∃ F r, (∀ fuel, F ≤ fuel → calcLms P nA nT srt pick key (fun _ => true) old fuel n = .done r) ∧
      ∀ tr π, Solution P g.heap n tr π → ∀ x ∈ r, Met P nT (holds n.state) π (live g.heap n) tr x := by
  have hg := (Reached.ninv hI.wf hI.cfg hr).good
  have hk : ∀ tr, PgKeeps P nT g.heap n (fun _ => true) tr := fun tr => ⟨fun _ _ _ _ => rfl, fun _ _ _ _ => rfl, fun _ _ => .inl rfl⟩
  obtain ⟨π, hπ⟩ := hsol
  obtain ⟨tr, hs⟩ := nodeSol_iff.1 hπ
  obtain ⟨F, r, h1, -, h3⟩ := C59_causal hI hr hsrt pick key old (reach := fun _ => true)
    ⟨fun _ _ _ _ _ => .inl rfl, fun _ _ _ _ _ => rfl, fun f hf => by
      rw [← hg.node.state_len]
      by_contra h
      rw [List.getElem?_eq_none (by omega)] at hf
      simp at hf⟩ ⟨tr, π, hs, hk tr⟩
  exact ⟨F, r, h1, fun tr π hs => h3 tr π hs (hk tr)⟩

/-! ## C59: local landmarks -/

/-- C59: the local landmarks are the tasks obtained from a task of the network by repeatedly going to a subtask that all methods of a task
share; all of them occur in every decomposition of the network, and all of them are landmarks of the AND/OR graph. -/
theorem C59_local (hI : RcInput P cfg nA nT) (hr : Reached P cfg g n) :
    ∃ F r, (∀ fuel, F ≤ fuel → genLocalLms P fuel g.heap n = some r) ∧
      (∀ t, t ∈ r ↔ ∃ u ∈ live g.heap n,
        TransGen (fun a b => (∃ m < P.numMethods, P.head m = a) ∧ ∀ m < P.numMethods, P.head m = a → b ∈ P.sub m) (taskOf g.heap u) t) ∧
      ∀ t ∈ r, (∀ tr : Nat → Tree, (∀ u ∈ live g.heap n, Valid P (taskOf g.heap u) (tr u)) → ∃ u ∈ live g.heap n, TaskIn P (tr u) t) ∧
        ∃ y, Root P g.heap n y ∧ ¬ Der (lmGraph P nA nT) (· = tN P t) y := by
  have hg := (Reached.ninv hI.wf hI.cfg hr).good
  obtain ⟨F, r, h1, h2⟩ := genLocalLms_spec hI.rc hg.heap hg.node
  have he : LocalStep P = fun a b => (∃ m < P.numMethods, P.head m = a) ∧ ∀ m < P.numMethods, P.head m = a → b ∈ P.sub m := by
    funext a b
    exact propext mem_genLocal
  refine ⟨F, r, h1, fun t => by rw [h2, he], fun t ht => ?_⟩
  obtain ⟨u, hu, hst⟩ := (h2 t).1 ht
  exact ⟨fun tr hv => ⟨u, hu, local_met hI.wf hst (hv u hu)⟩, _, .inr ⟨u, hu, rfl⟩, local_isLm hI.wf hI.rc (live_lt hI hr u hu) hst⟩

/-! ## Examples -/

/-- Sorting by insertion, in place of the heap that sorts the sets. -/
def insSort (k : Nat → Nat) (l : List Nat) : List Nat := l.insertionSort fun a b => k a ≤ k b

theorem insSort_ok : SortOK insSort where
  perm k l := List.perm_insertionSort _ _
  sorted k l := by
    haveI : Std.Total fun a b : Nat => k a ≤ k b := ⟨fun a b => Nat.le_total _ _⟩
    haveI : IsTrans Nat fun a b : Nat => k a ≤ k b := ⟨fun a b c => Nat.le_trans⟩
    exact List.pairwise_insertionSort (fun a b : Nat => k a ≤ k b) l

/-- The node reached by `I -> A, A`. -/
def lmNode (P : Problem) : Option (Glob × Node) := decompose P rcCfg 20 (initNode P rcCfg).1 (initNode P rcCfg).2 0 0

/-- The node reached by `I -> A, A`, `A -> b` and the execution of `b`. -/
def lmNode2 (P : Problem) : Option (Glob × Node) := do
  let (g, n) ← lmNode P
  let (g, n) ← decompose P rcCfg 20 g n 0 1
  apply P rcCfg 20 g n 0

def showLms (r : LmSets) : List Nat × List Nat × List Nat := (ascend r.f, ascend r.t, ascend r.m)

/-- Both facts, both actions and task `A` are landmarks of the node with network `A, A`, with either order of popping. -/
example : (lmNode rcP).bind (fun x => (genAndOr rcP 2 4 (fun _ => 0) 100 x.1.heap x.2).map showLms) = some ([0, 1], [0, 1, 3], []) ∧
    (lmNode rcP).bind (fun x => (genAndOr rcP 2 4 (fun l => l.length - 1) 100 x.1.heap x.2).map showLms) = some ([0, 1], [0, 1, 3], []) := by
  decide +kernel

/-- The initial node: also `I` and its method. -/
example : (genAndOr rcP 2 4 (fun _ => 0) 100 (initNode rcP rcCfg).1.heap (initNode rcP rcCfg).2).map showLms =
    some ([0, 1], [0, 1, 2, 3], [0]) := by decide +kernel

def showOut : LmOut → Option (List Nat)
  | .done r => some (ascend r)
  | _ => none

/-- `LmCausal` for these nodes: facts have numbers 0 and 1, tasks 2 to 5 and methods 6 to 8. -/
example : (lmNode rcP).map (fun x => showOut (calcLms rcP 2 4 insSort (fun _ => 0) (fun _ _ => 0) (fun _ => true) (fun _ => [7, 7]) 100 x.2)) =
      some (some [0, 1, 2, 3, 5]) ∧
    (lmNode2 rcP).map (fun x => showOut (calcLms rcP 2 4 insSort (fun _ => 0) (fun _ _ => 0) (fun _ => true) (fun _ => []) 100 x.2)) =
      some (some [0, 1, 3, 5]) := by decide +kernel

/-- Local landmarks: `A` of `I`; with only one method for `A`, its subtask as well. -/
example : (genLocalLms rcP 100 (initNode rcP rcCfg).1.heap (initNode rcP rcCfg).2).map ascend = some [3] ∧
    (genLocalLms { rcP with numMethods := 2 } 100 (initNode { rcP with numMethods := 2 } rcCfg).1.heap
      (initNode { rcP with numMethods := 2 } rcCfg).2).map ascend = some [0, 3] := by decide +kernel

/-- The hypotheses of the theorems hold for the node with network `A, A`; it has a solution and the initial state. -/
example : ∃ g n, Reached rcP rcCfg g n ∧ (∃ tr π, Solution rcP g.heap n tr π) ∧ ∀ f, holds n.state f → f ∈ rcP.s0 := by
  cases h : decompose rcP rcCfg 20 (initNode rcP rcCfg).1 (initNode rcP rcCfg).2 0 0 with
  | none =>
    have : (decompose rcP rcCfg 20 (initNode rcP rcCfg).1 (initNode rcP rcCfg).2 0 0).isSome = true := by decide +kernel
    rw [h] at this; cases this
  | some x =>
    obtain ⟨g, n⟩ := x
    obtain ⟨hr, π, -, hs⟩ := rcP_node h
    obtain ⟨tr, hsol⟩ := nodeSol_iff.1 ⟨2, hs⟩
    refine ⟨g, n, hr, ⟨tr, π, hsol⟩, fun f hf => ?_⟩
    have : (decompose rcP rcCfg 20 (initNode rcP rcCfg).1 (initNode rcP rcCfg).2 0 0).map (fun x => x.2.state) = some [false, false] := by
      decide +kernel
    rw [h] at this
    simp only [Option.map_some, Option.some.injEq] at this
    rw [this] at hf
    rcases f with _ | _ | f <;> simp [holds] at hf

/-- The condition on the state in `C59_andor_sound` is needed: `generateAndOrLMs` starts from the initial state of the problem, also when it
is called for another node.  After `b` has been executed, `b` is still returned as a landmark (task 0), but the node is solved by
decomposing `A` to `c` and executing it. -/
theorem C59_andor_other_state_violated : ∃ g n r tr π, Reached rcP rcCfg g n ∧ genAndOr rcP 2 4 (fun _ => 0) 100 g.heap n = some r ∧
    0 ∈ r.t ∧ Solution rcP g.heap n tr π ∧ ¬ ∃ u ∈ live g.heap n, TaskIn rcP (tr u) 0 := by
  obtain ⟨⟨g, n⟩, hgn⟩ : ∃ x, lmNode2 rcP = some x := Option.isSome_iff_exists.1 (by decide +kernel)
  have hr : Reached rcP rcCfg g n := by
    unfold lmNode2 lmNode at hgn
    simp only [Option.bind_eq_bind, Option.bind_eq_some_iff] at hgn
    obtain ⟨⟨g1, n1⟩, h1, ⟨g2, n2⟩, h2, h3⟩ := hgn
    have e1 : (decompose rcP rcCfg 20 (initNode rcP rcCfg).1 (initNode rcP rcCfg).2 0 0).map (fun x => (x.2.abs, taskOf x.1.heap 1)) =
        some ([1, 2], 3) := by decide +kernel
    have e2 : ((decompose rcP rcCfg 20 (initNode rcP rcCfg).1 (initNode rcP rcCfg).2 0 0).bind fun x => decompose rcP rcCfg 20 x.1 x.2 0 1).map
        (fun x => (x.2.prims, isApplicable rcP x.2.state (taskOf x.1.heap 3))) = some ([3], true) := by decide +kernel
    rw [h1] at e1 e2
    rw [Option.bind_some, h2] at e2
    simp only [Option.map_some, Option.some.injEq, Prod.mk.injEq] at e1 e2
    refine .app (.dec (.dec .init (u := 0) (by decide) (by decide) h1) (u := 1) (by rw [e1.1]; rfl) (by rw [e1.2]; decide) h2) (u := 3)
      (by rw [e2.1]; rfl) e2.2 h3
  have e : (lmNode2 rcP).map (fun x => (x.2.firsts, x.2.state, taskOf x.1.heap 2, x.1.heap.length, x.1.heap.all fun st => st.succs.isEmpty)) =
      some ([2], [true, false], 3, 4, true) := by decide +kernel
  have e' : (lmNode2 rcP).map (fun x => ((genAndOr rcP 2 4 (fun _ => 0) 100 x.1.heap x.2).map fun r => decide (0 ∈ r.t))) = some (some true) := by decide +kernel
  rw [hgn] at e e'
  simp only [Option.map_some, Option.some.injEq, Prod.mk.injEq, List.all_eq_true, List.isEmpty_iff, Option.map_eq_some_iff, decide_eq_true_eq] at e e'
  obtain ⟨e1, e2, e3, e4, e5⟩ := e
  obtain ⟨r, hr1, hr2⟩ := e'
  have hlive : ∀ u, u ∈ live g.heap n ↔ u = 2 := by
    intro u
    have hg := (Reached.ninv rcP_wf rcP_input.cfg hr).good
    rw [mem_live hg.heap hg.node.lt]
    unfold ReachFrom
    rw [e1]
    simp only [List.mem_singleton, exists_eq_left]
    constructor
    · intro h
      induction h with
      | refl => rfl
      | tail _ h ih =>
        obtain ⟨st, h1, h2⟩ := h
        rw [e5 st (List.mem_of_getElem? h1)] at h2
        simp at h2
    · rintro rfl; exact .refl
  have hleaf : ∀ p a, LeafAt rcP (.node 2 fun _ => .leaf 1) p a ↔ p = [0] ∧ a = 1 := by
    intro p a
    constructor
    · intro h
      rcases h with _ | ⟨hi, h⟩
      rename_i i p
      have hi : i < 1 := hi
      obtain rfl : i = 0 := by omega
      cases h
      exact ⟨rfl, rfl⟩
    · rintro ⟨rfl, rfl⟩
      exact .child (by decide) .here
  refine ⟨g, n, r, fun _ => .node 2 fun _ => .leaf 1, [1], hr, hr1, hr2,
    ⟨[(2, [0])], rcP.result (holds n.state) 1, ⟨fun u hu => ?_, by simp, fun x => ?_, List.pairwise_singleton _ _, ?_⟩, ?_, ?_⟩, ?_⟩
  · rw [(hlive u).1 hu, e3]
    refine Valid.node (P := rcP) (m := 2) (by decide) fun i t h => ?_
    have h : [1][i]? = some t := h
    rcases i with _ | i <;> simp at h
    subst h; exact Valid.leaf rfl
  · simp only [hleaf, hlive, List.mem_singleton, exists_eq_right_right, Prod.ext_iff, exists_and_left, exists_eq, and_true]
  · exact .cons ((hleaf _ _).2 ⟨rfl, rfl⟩) .nil
  · refine .cons (fun f h => ?_) (.nil _)
    have h : f ∈ [0] := h
    obtain rfl : f = 0 := by simpa using h
    unfold holds; rw [e2]; rfl
  · intro f h; exact .inl h
  · rintro ⟨u, -, h⟩
    generalize ht : (Htn.Tree.node 2 fun _ => Htn.Tree.leaf 1) = tr at h
    generalize hz : 0 = z at h
    cases h with
    | leaf => cases ht
    | node => cases ht; simp [rcP] at hz
    | child _ h =>
      cases ht
      cases h
      simp at hz

/-- If a goal fact has no derivation, `LmCausal` reads behind the end of the array of its node, which holds the set of all nodes without
listing them (here: an action for the goal fact is missing). -/
theorem C59_causal_unreachable_ub :
    calcLms { rcP with add := fun _ => [] } 2 4 insSort (fun _ => 0) (fun _ _ => 0) (fun _ => true) (fun _ => []) 100
      (initNode { rcP with add := fun _ => [] } rcCfg).2 = .ub := by decide +kernel

end Verif.Props
