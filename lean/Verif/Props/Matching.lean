import Verif.VisPo
import Verif.Props.EndToEnd
import Verif.Props.Ordering

/-! # C26: comparison of networks; C02 with the visited list in partially ordered instances -/

namespace Verif.Props

open Verif.Htn Verif.Prog Verif.TaskCounter Verif.Bits Verif.CST Verif.Ordering Relation

variable {P : Problem} {cfg : Cfg} {ordA ordB : List Nat → List Nat} {o : Opts} {c : PoCfg}

/-- **C26** (one direction).  Networks that are isomorphic graphs with equal tasks are always found
equal, whatever the order in which steps are tried. -/
theorem C26_isomorphic_accepted (hP : P.WF) (hcfg : cfg.Ok) (hA : ∀ l, (ordA l).Perm l) (hB : ∀ l, (ordB l).Perm l)
    {g n n'} (h : Reached P cfg g n) (h' : Reached P cfg g n') {e e' : Nat → Nat} (hi : GraphIso g.heap n n' e e') :
    matching ordA ordB g.heap (g.heap.length + 1) n n' = some true :=
  matching_complete hA hB (h.ninv hP hcfg).good (h'.ninv hP hcfg).good hi (by omega)

/-- **C26**, restricted to networks in which no step has two direct predecessors: if they are found
equal, they are isomorphic.  Full statement: the same without the restriction; it does not hold, see
`C26_violated`. -/
theorem C26_accepted_isomorphic_partial (hP : P.WF) (hcfg : cfg.Ok) (hA : ∀ l, (ordA l).Perm l)
    (hB : ∀ l, (ordB l).Perm l) {g n n'} (h : Reached P cfg g n) (h' : Reached P cfg g n')
    (hf : ForestNode g.heap n) (hf' : ForestNode g.heap n') {fuel}
    (hm : matching ordA ordB g.heap fuel n n' = some true) :
    ∃ e e', NetIso (live g.heap n) (live g.heap n') (taskOf g.heap) (taskOf g.heap)
      (TransGen (Edge g.heap)) (TransGen (Edge g.heap)) e e' :=
  matching_forest hA hB (h.ninv hP hcfg).good (h'.ninv hP hcfg).good hf hf' hm

/-! ## The search -/

/-- **C02** with comparison of networks, for instances whose networks are forests (in methods, every
subtask has at most one direct predecessor, and there is one last subtask unless the method belongs
to the initial task).  Without this restriction the statement is false, see `C02_network_comparison_violated`. -/
theorem C02_network_comparison_partial (hP : P.WF) (hcfg : cfg.Ok) (hc : c.Ok) (hF : ForestP P) {fuel s' tb}
    (h : search P cfg (o.env (insTotal (insGi c))) fuel emptyTab emptyFringe () = some (.unsolvable, s'))
    (_ : s'.vis = some tb) : ∀ π, ¬ IsSolution P π := by
  obtain ⟨c0, c1, c2⟩ := forest_keeps hP hcfg hF
  have hK : Keeps P cfg (o.env (insTotal (insGi c))) o.eval (ForestInv P) (fun h x => ForestInv P h x.node)
      noState :=
    ⟨c0, fun _ _ h => h, c1, c2, fun h h' x hp hh' hi hc => hc.ext hp hh' hi.good,
      fun h h' n hp hh' hi hc => hc.ext hp hh' hi.good, fun _ _ _ _ _ _ h _ => h, fun _ _ _ _ h => h⟩
  exact C02_unsolvable_is_correct hP hcfg (opts_fringe o _) hK
    (insGi_sound hc rfl fun _ _ h => h.forest) (opts_heurSafe _ _ _) (HeurInv.trivial _ _ _) h

/-! ## A wrong verdict -/

/-- Tasks: `a` = 2, `b` = 3, `c` = 4, `d` = 5.  The abstract task 1 has the methods
`a < c₁, b < c₁, d < c₂` and `a < c₁, b < c₂, d < c₂`.  Only the sequence `a, c, b, d, c` is executable;
it is allowed by the second method only. -/
def giP : Problem where
  numFacts := 4
  prim t := decide (2 ≤ t)
  prec t := if t = 2 then [0] else if t = 3 then [2] else if t = 4 then [1] else [3]
  add t := if t = 2 then [1] else if t = 3 then [3] else if t = 4 then [2] else [1]
  del t := if t = 2 then [0] else if t = 3 then [2] else if t = 4 then [1] else [3]
  cost _ := 1
  numMethods := 3
  head m := if m = 0 then 0 else 1
  sub m := if m = 0 then [1] else [2, 3, 5, 4, 4]
  ord m := if m = 0 then [] else if m = 1 then [(0, 3), (1, 3), (2, 4)] else [(0, 3), (1, 4), (2, 4)]
  init := 0
  s0 := [0]
  goal := []

/-- The same networks as methods of the initial task. -/
def seqP : Problem := { giP with
  numMethods := 2
  head := fun _ => 0
  sub := fun _ => [2, 3, 5, 4, 4]
  ord := fun m => if m = 0 then [(0, 3), (1, 3), (2, 4)] else [(0, 3), (1, 4), (2, 4)] }

theorem giP_wf : giP.WF where
  ord_lt := by
    intro m _ i j h
    simp only [giP] at h ⊢
    split_ifs at h ⊢ <;> simp at h ⊢ <;> omega
  ord_acyclic := by
    intro m _
    refine ⟨fun i => i, fun i j h => ?_⟩
    simp only [giP] at h
    show i < j
    split_ifs at h <;> simp at h <;> omega
  sub_ne := by intro m _; simp only [giP]; split_ifs <;> simp
  head_abs := by intro m _; simp only [giP]; split_ifs <;> decide
  init_abs := by decide
  prec_lt := by intro a f h; simp only [giP] at h ⊢; split_ifs at h <;> simp at h <;> omega
  add_lt := by intro a f h; simp only [giP] at h ⊢; split_ifs at h <;> simp at h <;> omega
  del_lt := by intro a f h; simp only [giP] at h ⊢; split_ifs at h <;> simp at h <;> omega
  s0_lt := by simp [giP]
  goal_lt := by simp [giP]

theorem seqP_wf : seqP.WF where
  ord_lt := by
    intro m _ i j h
    simp only [seqP] at h ⊢
    split_ifs at h ⊢ <;> simp at h ⊢ <;> omega
  ord_acyclic := by
    intro m _
    refine ⟨fun i => i, fun i j h => ?_⟩
    simp only [seqP] at h
    show i < j
    split_ifs at h <;> simp at h <;> omega
  sub_ne := by intro m _; simp [seqP]
  head_abs := by intro m _; rfl
  init_abs := by decide
  prec_lt := giP_wf.prec_lt
  add_lt := giP_wf.add_lt
  del_lt := giP_wf.del_lt
  s0_lt := giP_wf.s0_lt
  goal_lt := giP_wf.goal_lt

/-- A visited list in partial order mode, with all information in keys. -/
def exPo : PoCfg where
  noCheck := false
  noReopen := false
  totalOrder := false
  seqMode := false
  taskHash := true
  seqHash := true
  topo := true
  numTasks := 6
  prime i := 2 * i + 3
  orderPairs := true
  layers := true
  ordA := id
  ordB := id

theorem exPo_ok : exPo.Ok := ⟨fun _ => .refl _, fun _ => .refl _, rfl, rfl⟩

theorem unsolvable_of {V F H : Type} {r : Option (Result × St V F H)} {p : V → Bool}
    (h : (r.map fun r => match r.1 with | .unsolvable => p r.2.vis | _ => false) = some true) :
    ∃ s', r = some (.unsolvable, s') ∧ p s'.vis = true := by
  obtain ⟨⟨out, s'⟩, h1, h2⟩ := Option.map_eq_some_iff.1 h
  cases out with
  | unsolvable => exact ⟨s', h1, h2⟩
  | solved n => simp at h2
  | timeout => simp at h2

theorem solution_of {P : Problem} (hP : P.WF) {fuel π}
    (h : ((search P exCfg ((exOpts false).env insNone) fuel () emptyFringe ()).map fun r =>
      match r.1 with | .solved n => planOf n.node.sol | _ => []) = some π) (hne : π ≠ []) : IsSolution P π := by
  obtain ⟨⟨out, s'⟩, h1, h2⟩ := Option.map_eq_some_iff.1 h
  cases out with
  | solved n => rw [← h2]; exact C01_simple_search hP exCfg_ok h1
  | unsolvable => exact absurd h2.symm hne
  | timeout => exact absurd h2.symm hne

/-- **C02 is violated** in partially ordered instances: with the comparison of networks, and with keys
alone, the search reports a solvable problem as unsolvable, without undefined behaviour. -/
theorem C02_network_comparison_violated :
    giP.WF ∧ IsSolution giP [2, 4, 3, 5, 4] ∧
    (∃ s', search giP exCfg ((exOpts false).env (insTotal (insGi exPo))) 60 emptyTab emptyFringe () =
      some (.unsolvable, s') ∧ s'.vis.isSome = true) ∧
    (∃ s', search giP exCfg ((exOpts false).env (insTotal (insNoGi exPo))) 60 emptyTab emptyFringe () =
      some (.unsolvable, s') ∧ s'.vis.isSome = true) := by
  refine ⟨giP_wf, solution_of (fuel := 60) giP_wf ?_ (by simp), unsolvable_of (p := Option.isSome) ?_,
    unsolvable_of (p := Option.isSome) ?_⟩ <;> decide +kernel

/-- **C26 is violated.**  Two nodes of the example have the same key and are found equal, although
they are not isomorphic. -/
theorem C26_violated : ∃ g n n', Reached giP exCfg g n ∧ Reached giP exCfg g n' ∧
    n.state = n'.state ∧ poKey exPo g.heap n = poKey exPo g.heap n' ∧
    matching id id g.heap (g.heap.length + 1) n n' = some true ∧
    ¬ ∃ e e', NetIso (live g.heap n) (live g.heap n') (taskOf g.heap) (taskOf g.heap)
      (TransGen (Edge g.heap)) (TransGen (Edge g.heap)) e e' := by
  let i0 := initNode giP exCfg
  have key : ∃ r1 rA rB, decompose giP exCfg 50 i0.1 i0.2 0 0 = some r1 ∧
      decompose giP exCfg 50 r1.1 r1.2 0 1 = some rA ∧ decompose giP exCfg 50 rA.1 r1.2 0 2 = some rB ∧
      r1.2.abs[0]? = some 1 ∧ taskOf r1.1.heap 1 = 1 ∧ taskOf rA.1.heap 1 = 1 ∧
      rA.2.state = rB.2.state ∧ poKey exPo rB.1.heap rA.2 = poKey exPo rB.1.heap rB.2 ∧
      matching id id rB.1.heap (rB.1.heap.length + 1) rA.2 rB.2 = some true ∧
      rB.1.heap.length = 12 ∧ (∀ u < 12, ∀ v ∈ succsOf rB.1.heap u,
        (u, v) ∈ [(2, 5), (3, 5), (4, 6), (7, 10), (8, 11), (9, 11)]) ∧
      5 ∈ succsOf rB.1.heap 2 ∧ 5 ∈ succsOf rB.1.heap 3 ∧
      rA.2.firsts = [2, 3, 4] ∧ (∀ u ∈ rB.2.firsts, 7 ≤ u) ∧
      taskOf rB.1.heap 2 = 2 ∧ taskOf rB.1.heap 3 = 3 ∧ taskOf rB.1.heap 7 = 2 ∧
      taskOf rB.1.heap 8 = 3 ∧ taskOf rB.1.heap 9 = 5 := by
    refine ⟨_, _, _, rfl, rfl, rfl, ?_⟩
    decide +kernel
  obtain ⟨⟨g1, n1⟩, ⟨gA, nA⟩, ⟨gB, nB⟩, h1, hA, hB, k0, k1, k2, k3, k4, k5, k6, k7, k8, k9, k10, k11, k12, k13, k14, k15, k16⟩ := key
  have r1 : Reached giP exCfg g1 n1 := .dec .init (u := 0) (by decide) (m := 0) (by decide) h1
  have m1 : 1 ∈ methodsOf giP 1 := by decide
  have m2 : 2 ∈ methodsOf giP 1 := by decide
  have rA : Reached giP exCfg gA nA := .dec r1 k0 (by simp only at k1; rw [k1]; exact m1) hA
  have r1' : Reached giP exCfg gA n1 := .otherDec r1 r1 k0 (by simp only at k1; rw [k1]; exact m1) hA
  have rB : Reached giP exCfg gB nB := .dec r1' k0 (by simp only at k2; rw [k2]; exact m2) hB
  have rA' : Reached giP exCfg gB nA := .otherDec rA r1' k0 (by simp only at k2; rw [k2]; exact m2) hB
  refine ⟨gB, nA, nB, rA', rB, k3, k4, k5, ?_⟩
  rintro ⟨e, e', hi⟩
  simp only at k6 k7 k8 k9 k10 k11 k12 k13 k14 k15 k16
  have gA' := (rA'.ninv giP_wf exCfg_ok).good
  have gB' := (rB.ninv giP_wf exCfg_ok).good
  have hE : ∀ u v, Edge gB.heap u v → (u, v) ∈ [(2, 5), (3, 5), (4, 6), (7, 10), (8, 11), (9, 11)] := by
    intro u v he
    have hu : u < 12 := by
      obtain ⟨st, h1, -⟩ := he
      have := (List.getElem?_eq_some_iff.1 h1).1
      omega
    exact k7 u hu v (mem_succsOf.2 he)
  have hT : ∀ u v, TransGen (Edge gB.heap) u v → (u, v) ∈ [(2, 5), (3, 5), (4, 6), (7, 10), (8, 11), (9, 11)] := by
    intro u v ht
    induction ht with
    | single h => exact hE _ _ h
    | tail _ h ih =>
      have := hE _ _ h
      simp only [List.mem_cons, Prod.mk.injEq, List.not_mem_nil, or_false] at ih this
      omega
  have hB7 : ∀ v ∈ live gB.heap nB, 7 ≤ v := by
    intro v hv
    rw [mem_live gB'.heap gB'.node.lt] at hv
    obtain ⟨x, hx, hr⟩ := hv
    induction hr with
    | refl => exact k11 x hx
    | tail _ he ih =>
      have := hE _ _ he
      simp only [List.mem_cons, Prod.mk.injEq, List.not_mem_nil, or_false] at this
      omega
  have l2 : 2 ∈ live gB.heap nA := (gA'.node.first_min gA'.heap (by rw [k10]; simp)).1
  have l3 : 3 ∈ live gB.heap nA := (gA'.node.first_min gA'.heap (by rw [k10]; simp)).1
  have l5 : 5 ∈ live gB.heap nA := live_succ gA'.heap gA'.node.lt l2 (mem_succsOf.1 k8)
  have t2 := hT _ _ ((hi.lt 2 l2 5 l5).2 (.single (mem_succsOf.1 k8)))
  have t3 := hT _ _ ((hi.lt 3 l3 5 l5).2 (.single (mem_succsOf.1 k9)))
  have b2 := hB7 _ (hi.e_mem 2 l2)
  have b3 := hB7 _ (hi.e_mem 3 l3)
  have a2 := hi.lab 2 l2
  have a3 := hi.lab 3 l3
  simp only [List.mem_cons, Prod.mk.injEq, List.not_mem_nil, or_false] at t2 t3
  have c2 : e 2 = 7 := by
    rcases (by omega : e 2 = 7 ∨ e 2 = 8 ∨ e 2 = 9) with h | h | h
    · exact h
    · rw [h] at a2; omega
    · rw [h] at a2; omega
  have c3 : e 3 = 8 := by
    rcases (by omega : e 3 = 7 ∨ e 3 = 8 ∨ e 3 = 9) with h | h | h
    · rw [h] at a3; omega
    · exact h
    · rw [h] at a3; omega
  omega

/-- The methods of `seqP` as they are read. -/
def seqMs : List MethodIn := [(5, [(0, 3), (1, 3), (2, 4)], true), (5, [(0, 3), (1, 4), (2, 4)], true)]

/-- A visited list in parallel-sequences mode. -/
def exSeqVis : VisCfg := { exPo.toVisCfg with seqMode := true }

/-- **C02 is violated** in instances that are taken for parallel sequences (see C11): the flag is set
for `seqP`, and the search reports a solvable problem as unsolvable. -/
theorem C02_parallel_sequences_violated :
    seqP.WF ∧ (∃ F', readAll seqMs ⟨true, true, true⟩ = some ([seqP.ord 0, seqP.ord 1], F') ∧
      F'.parallelSequences = true) ∧ IsSolution seqP [2, 4, 3, 5, 4] ∧
    ∃ s', search seqP exCfg ((exOpts false).env (insVis exSeqVis)) 60 emptyVis emptyFringe () =
      some (.unsolvable, s') ∧ s'.vis.isSome = true := by
  refine ⟨seqP_wf, ⟨⟨false, true, true⟩, ?_, rfl⟩, solution_of (fuel := 60) seqP_wf ?_ (by simp),
    unsolvable_of (p := Option.isSome) ?_⟩ <;> decide +kernel

/-! ## Examples -/

/-- The initial task 0 has the method `a < b, a < A` (an out-tree), the task `A` the methods `b` and `b, A`;
the goal cannot be reached. -/
def forP : Problem where
  numFacts := 1
  prim t := decide (2 ≤ t)
  prec _ := []
  add _ := []
  del _ := []
  cost _ := 1
  numMethods := 3
  head m := if m = 0 then 0 else 1
  sub m := if m = 0 then [2, 3, 1] else if m = 1 then [3] else [3, 1]
  ord m := if m = 0 then [(0, 1), (0, 2)] else if m = 1 then [] else [(0, 1)]
  init := 0
  s0 := []
  goal := [0]

theorem forP_wf : forP.WF where
  ord_lt := by
    intro m _ i j h
    simp only [forP] at h ⊢
    split_ifs at h ⊢ <;> simp at h ⊢ <;> omega
  ord_acyclic := by
    intro m _
    refine ⟨fun i => i, fun i j h => ?_⟩
    simp only [forP] at h
    show i < j
    split_ifs at h <;> simp at h <;> omega
  sub_ne := by intro m _; simp only [forP]; split_ifs <;> simp
  head_abs := by intro m _; simp only [forP]; split_ifs <;> decide
  init_abs := by decide
  prec_lt := by simp [forP]
  add_lt := by simp [forP]
  del_lt := by simp [forP]
  s0_lt := by simp [forP]
  goal_lt := by simp [forP]

theorem forP_forest : ForestP forP where
  pred1 := by
    intro m _ i i' j h h'
    simp only [forP] at h h'
    split_ifs at h h' <;> simp at h h' <;> omega
  ends := by
    intro m hm
    have hm : m < 3 := hm
    rcases (by omega : m = 0 ∨ m = 1 ∨ m = 2) with rfl | rfl | rfl
    · exact .inr ⟨rfl, by decide⟩
    · refine .inl fun i i' hi hi' _ _ => ?_
      have : i < 1 := hi
      have : i' < 1 := hi'
      omega
    · refine .inl fun i i' hi hi' h h' => ?_
      have hi : i < 2 := hi
      have hi' : i' < 2 := hi'
      have key : ∀ i < 2, isLast forP 2 i = true → i = 1 := by decide
      rw [key i hi h, key i' hi' h']

/-- The search reports unsolvable, without undefined behaviour; so that the hypotheses of
`C02_network_comparison_partial` are met.  The instance is neither totally ordered nor would the
search end without duplicate detection. -/
example : ((search forP exCfg ((exOpts false).env (insTotal (insGi exPo))) 60 emptyTab emptyFringe ()).map fun r =>
      match r.1 with
      | .unsolvable => r.2.vis.isSome
      | _ => false) = some true := by decide +kernel

/-- Two nodes with isomorphic networks on different steps are found equal. -/
example : ∃ r1 r2, decompose giP exCfg 50 (initNode giP exCfg).1 (initNode giP exCfg).2 0 0 = some r1 ∧
    decompose giP exCfg 50 r1.1 r1.2 0 1 = some r2 ∧
    ((decompose giP exCfg 50 r2.1 r1.2 0 1).map fun r3 =>
      (r2.2.firsts, r3.2.firsts, matching id id r3.1.heap 50 r2.2 r3.2)) = some ([2, 3, 4], [7, 8, 9], some true) := by
  refine ⟨_, _, rfl, rfl, ?_⟩
  decide +kernel

/-- Every node meets the hypothesis of `C26_isomorphic_accepted` with itself. -/
example {h : Heap} {n : Node} : GraphIso h n n id id :=
  ⟨fun _ h => h, fun _ h => h, fun _ _ => rfl, fun _ _ => rfl, fun _ _ => rfl, fun _ _ _ _ => Iff.rfl, fun _ _ => rfl⟩

end Verif.Props
