import Verif.Rc
import Verif.SimpleHeur
import Verif.MinImplied
import Verif.Iso

/-! # The search with a relaxed composition heuristic

The model of the heuristic in `Verif.Rc` becomes part of the search: reachability sets of steps and the sets of
the heuristic are kept from call to call. -/

namespace Verif.Rc

open Verif.Htn Verif.Prog Verif.TaskCounter Verif.Strips Verif.IntSets Verif.Reach Relation

/-- What is kept between calls: the reachability sets stored with the steps, the sets of `hhRC2`, and whether some call
has left the defined range (integer overflow). -/
structure RcH where
  reach : RSt
  sets : RcSets
  bad : Bool

/-- The value, or 0 if it is not defined. -/
def valOf (r : Option (RcSets × Nat × List (List Nat))) : Nat :=
  match r with
  | none => 0
  | some (_, v, _) => v

/-- `updateReachability` for a new node and `setHeuristicValue` (src/Model.cpp 734-735, 1169-1170, hhRC2.h 113-125).
Simplified: in the code `updateReachability` is called at the end of `apply` and `decompose`, that is, also for nodes
that are dropped before their evaluation.  If the value is not defined, the search continues with 0 and
`bad` is set. -/
def rcCall (P : Problem) (nA U : Nat) (o : RcOpt) (Rt : Nat → Option (List Nat)) (hs : RcH) (h : Heap) (n : Node) :
    RcH × Nat :=
  match updateReach Rt h (h.length + 1) hs.reach n with
  | none => ({ hs with bad := true }, 0)
  | some r =>
    match rcValue P nA U o r.cache n hs.sets with
    | none => (⟨r, hs.sets, true⟩, 0)
    | some (s, v, _) => (⟨r, s, hs.bad⟩, v)

/-- Search with priority queue fringe, the RC heuristic as first one, and simple heuristics as further ones
(src/search/PriorityQueueSearch.h 113-138, hhRC2.h 113-125).  If the value is `UNREACHABLE`, the node is dropped. -/
def rcEnv {V : Type} (P : Problem) (nA U : Nat) (ro : RcOpt) (Rt : Nat → Option (List Nat)) (o : Opts)
    (ins : V → Heap → SNode → V × Bool) : Env V WFringe RcH where
  subopt := o.subopt
  push := wpush o.aStar o.weight o.rndF
  pop := wpop (o.heurs.length + 1) o.choice
  ins := ins
  heur := fun hs h _ n2 =>
    let r := rcCall P nA U ro Rt hs h n2
    (r.1, (r.2 : Int) :: o.heurs.map (SimpleH.value n2), r.2 != U)
  rnd := o.rndS
  timeUp := o.timeUp
  hLength := o.heurs.length + 1

/-- The state of the heuristic when the search begins (SearchEngine.cpp 252-262: `updateReachability(tnI)`;
hhRC2.h 76-78). -/
def rcStart (P : Problem) (cfg : Cfg) (nA nT : Nat) (Rt : Nat → Option (List Nat)) (junk : List Bool) : Option RcH := do
  let r ← updateReach Rt (initNode P cfg).1.heap ((initNode P cfg).1.heap.length + 1) ⟨fun _ => none, NoDel.init nA⟩
    (initNode P cfg).2
  return ⟨r, ⟨Bucket.init junk, NoDel.init (P.numFacts + nA + nT)⟩, false⟩

/-! ## The value depends on state and network only -/

theorem contained_ext {c c' : Counter} (h : Ok c) (h' : Ok c') (he : ∀ t, cnt c t = cnt c' t) : c = c' := by
  have hk : keys c = keys c' := Bucket.sorted_ext h.sorted h'.sorted fun t => by
    rw [mem_keys_iff h, mem_keys_iff h', he]
  have e : ∀ c : Counter, Ok c → c = (keys c).map fun t => (t, cnt c t) := fun c h => by
    rw [keys, List.map_map]
    conv_lhs => rw [← List.map_id c]
    refine List.map_congr_left fun e he => ?_
    simp only [id, Function.comp]
    rw [cnt_of_mem h (t := e.1) (k := e.2) he]
  rw [e c h, e c' h', hk]
  exact List.map_congr_left fun t _ => by rw [he]

theorem insert_ext {s s' t t' : NoDel} {i : Nat} (hi : s.Inv) (hi' : s'.Inv) (he : s.ints = s'.ints)
    (h : s.insert i = some t) (h' : s'.insert i = some t') : t.ints = t'.ints := by
  have hb : s.bools[i]? = some true ↔ s'.bools[i]? = some true := by rw [← hi.mem, ← hi'.mem, he]
  unfold NoDel.insert at h h'
  cases h1 : s.bools[i]? with
  | none => rw [h1] at h; cases h
  | some b =>
    cases h2 : s'.bools[i]? with
    | none => rw [h2] at h'; cases h'
    | some b' =>
      rw [h1, h2] at hb
      rw [h1] at h
      rw [h2] at h'
      cases b <;> cases b' <;> simp at hb
      · simp only [Option.ite_none_right_eq_some, Option.some.injEq] at h h'
        rw [← h.2, ← h'.2, he]
      · simp only [Option.some.injEq] at h h'
        rw [← h, ← h', he]

theorem insertAll_ext : ∀ (l : List Nat) {s s' t t' : NoDel}, s.Inv → s'.Inv → s.ints = s'.ints →
    (∀ i ∈ l, i < s.bools.length) → (∀ i ∈ l, i < s'.bools.length) → s.insertAll l = some t → s'.insertAll l = some t' →
    t.ints = t'.ints := by
  intro l
  induction l with
  | nil =>
    intro s s' t t' _ _ he _ _ h h'
    simp only [NoDel.insertAll, Option.some.injEq] at h h'
    rw [← h, ← h', he]
  | cons i l ih =>
    intro s s' t t' hi hi' he hl hl' h h'
    obtain ⟨s1, e1, i1, n1, -⟩ := NoDel.insert_spec hi (hl i List.mem_cons_self)
    obtain ⟨s1', e1', i1', n1', -⟩ := NoDel.insert_spec hi' (hl' i List.mem_cons_self)
    simp only [NoDel.insertAll, e1] at h
    simp only [NoDel.insertAll, e1'] at h'
    exact ih i1 i1' (insert_ext hi hi' he e1 e1') (fun x hx => by rw [n1]; exact hl x (List.mem_cons_of_mem _ hx))
      (fun x hx => by rw [n1']; exact hl' x (List.mem_cons_of_mem _ hx)) h h'

variable {P : Problem} {nA nT U : Nat} {last : Nat}

/-- The goals computed for the same task counts are the same lists. -/
theorem rcGoal_ext (hP : P.WF) {st st' : RcSets} {n n' : Node} {g g' : NoDel} (hst : SetsOK P nA nT st)
    (hst' : SetsOK P nA nT st') (hk : n.contained = n'.contained) (hlt : ∀ t ∈ keys n.contained, t < nT)
    (h : rcGoal P nA n st.g = some g) (h' : rcGoal P nA n' st'.g = some g') : g.ints = g'.ints := by
  obtain ⟨gi, gl⟩ := NoDel.clear_spec hst.g
  obtain ⟨gi', gl'⟩ := NoDel.clear_spec hst'.g
  have hlt1 : ∀ i ∈ P.goal, i < P.numFacts + nA + nT := fun i hi => by
    have := hP.goal_lt i hi
    omega
  have hlt2 : ∀ i ∈ (keys n.contained).map (bur P nA), i < P.numFacts + nA + nT := fun i hi => by
    obtain ⟨t, ht, rfl⟩ := List.mem_map.1 hi
    have := hlt t ht
    simp only [bur]; omega
  obtain ⟨g1, e1, i1, n1, -⟩ := NoDel.insertAll_spec (l := P.goal) gi fun i hi => by
    rw [gl, hst.g_len]; exact hlt1 i hi
  obtain ⟨g1', e1', i1', n1', -⟩ := NoDel.insertAll_spec (l := P.goal) gi' fun i hi => by
    rw [gl', hst'.g_len]; exact hlt1 i hi
  have he : g1.ints = g1'.ints := insertAll_ext _ gi gi' (by simp [NoDel.clear])
    (fun i hi => by rw [gl, hst.g_len]; exact hlt1 i hi) (fun i hi => by rw [gl', hst'.g_len]; exact hlt1 i hi) e1 e1'
  simp only [rcGoal, e1, Option.bind_eq_bind, Option.bind_some] at h
  simp only [rcGoal, e1', Option.bind_eq_bind, Option.bind_some] at h'
  rw [← hk] at h'
  exact insertAll_ext _ i1 i1' he (fun i hi => by rw [n1, gl, hst.g_len]; exact hlt2 i hi)
    (fun i hi => by rw [n1', gl', hst'.g_len]; exact hlt2 i hi) h h'

/-- Isomorphic networks contain the same tasks. -/
theorem contained_iso {h h' : Heap} {n n' : Node} {e g : Nat → Nat} (hc : CounterOK h n) (hc' : CounterOK h' n')
    (hi : NetIso (live h n) (live h' n') (taskOf h) (taskOf h') (TransGen (Edge h)) (TransGen (Edge h')) e g) :
    n.contained = n'.contained := by
  refine contained_ext hc.1 hc'.1 fun t => ?_
  rw [hc.2, hc'.2]
  refine Finset.card_nbij' e g (fun u hu => ?_) (fun v hv => ?_) (fun u hu => ?_) fun v hv => ?_
  · obtain ⟨h1, h2⟩ := Finset.mem_filter.1 hu
    exact Finset.mem_filter.2 ⟨hi.e_mem u h1, by rw [hi.lab u h1, h2]⟩
  · obtain ⟨h1, h2⟩ := Finset.mem_filter.1 hv
    exact Finset.mem_filter.2 ⟨hi.g_mem v h1, by rw [hi.symm.lab v h1, h2]⟩
  · exact hi.ge u (Finset.mem_filter.1 hu).1
  · exact hi.eg v (Finset.mem_filter.1 hv).1

/-- Nodes with the same state and isomorphic networks get the same value. -/
theorem rcValue_det (hP : P.WF) (hR : RcOK P nA nT) {h h' : Heap} {n n' : Node} {c c' : Cache} {st st' : RcSets}
    (hy : Ready P nA nT last h n c) (hy' : Ready P nA nT last h' n' c') (hst : SetsOK P nA nT st)
    (hst' : SetsOK P nA nT st') (hs : n.state = n'.state) {e g : Nat → Nat}
    (hi : NetIso (live h n) (live h' n') (taskOf h) (taskOf h') (TransGen (Edge h)) (TransGen (Edge h')) e g) (o : RcOpt) :
    valOf (rcValue P nA U o c n st) = valOf (rcValue P nA U o c' n' st') := by
  obtain ⟨b, gg, e1, e2, -, hp⟩ := rcSets_spec hP hR hy.heap hy.node hy.counter hy.lab hy.le hy.cache hy.firsts hst
  obtain ⟨b', gg', e1', e2', -, hp'⟩ :=
    rcSets_spec hP hR hy'.heap hy'.node hy'.counter hy'.lab hy'.le hy'.cache hy'.firsts hst'
  have hk := contained_iso hy.counter hy'.counter hi
  have hlt : ∀ t ∈ keys n.contained, t < nT := fun t ht => by
    rw [mem_keys_iff hy.counter.1, hy.counter.2, Finset.card_pos] at ht
    obtain ⟨u, hu⟩ := ht
    obtain ⟨h1, rfl⟩ := Finset.mem_filter.1 hu
    exact hy.lab u h1
  have hg := rcGoal_ext hP hst hst' hk hlt e2 e2'
  have hb : b.elems = b'.elems := by
    refine Bucket.sorted_ext (Bucket.elemsFrom_sorted _ _) (Bucket.elemsFrom_sorted _ _) fun f => ?_
    have h1 := hp.mem f
    have h2 := hp'.mem f
    refine h1.trans (Iff.trans ?_ h2.symm)
    rw [hs]
    refine or_congr_right (exists_congr fun t => and_congr_right fun _ => and_congr_right fun _ => ?_)
    constructor
    · rintro ⟨u, hu, hr⟩
      exact ⟨e u, hi.e_mem u hu, by rw [hi.lab u hu]; exact hr⟩
    · rintro ⟨u, hu, hr⟩
      exact ⟨g u, hi.g_mem u hu, by rw [hi.symm.lab u hu]; exact hr⟩
  simp only [rcValue, e1, e2, e1', e2', Option.bind_eq_bind, Option.bind_some, hb, hg, hk]
  cases o.inner b'.elems gg'.ints with
  | none => rfl
  | some r =>
    simp only [Option.bind_some]
    generalize (if (o.correct && r.1 != U) = true then addCorr U (Est.weight P nA o.mi o.est) n'.contained r.1
      else some r.1) = x
    cases x <;> rfl

/-! ## The corrections and the size of solutions -/

/-- The paths to the leaves of a tree. -/
def leafPaths (P : Problem) : Tree → List (List Nat)
  | .leaf _ => [[]]
  | .node m cs => (List.range (P.sub m).length).flatMap fun i => (leafPaths P (cs i)).map (i :: ·)

theorem leafPaths_leaf : ∀ (tr : Tree) (p : List Nat), p ∈ leafPaths P tr → ∃ a, LeafAt P tr p a := by
  intro tr
  induction tr with
  | leaf a => intro p hp; simp only [leafPaths, List.mem_singleton] at hp; subst hp; exact ⟨a, .here⟩
  | node m cs ih =>
    intro p hp
    simp only [leafPaths, List.mem_flatMap, List.mem_range, List.mem_map] at hp
    obtain ⟨i, hi, q, hq, rfl⟩ := hp
    obtain ⟨a, ha⟩ := ih i q hq
    exact ⟨a, .child hi ha⟩

theorem leafPaths_nodup : ∀ tr : Tree, (leafPaths P tr).Nodup := by
  intro tr
  induction tr with
  | leaf a => simp [leafPaths]
  | node m cs ih =>
    simp only [leafPaths]
    rw [List.nodup_flatMap]
    refine ⟨fun i _ => (ih i).map fun a b h => by simpa using h, ?_⟩
    refine List.nodup_range.imp fun {i j} hij => ?_
    intro p hp hq
    obtain ⟨q, -, rfl⟩ := List.mem_map.1 hp
    obtain ⟨q', -, h⟩ := List.mem_map.1 hq
    simp only [List.cons.injEq] at h
    exact hij h.1.symm

theorem sum_range_list (f : Nat → Nat) : ∀ n : Nat, ((List.range n).map f).sum = ∑ i ∈ Finset.range n, f i := by
  intro n
  induction n with
  | zero => rfl
  | succ n ih => rw [List.range_succ, List.map_append, List.sum_append, ih, Finset.sum_range_succ]; simp

theorem leafPaths_length : ∀ tr : Tree, (leafPaths P tr).length + tr.inner P = MinImplied.Tree.size P tr := by
  intro tr
  induction tr with
  | leaf a => rfl
  | node m cs ih =>
    simp only [leafPaths, Tree.inner, MinImplied.Tree.size, List.length_flatMap, List.length_map]
    rw [← Finset.sum_congr rfl fun i _ => ih i, Finset.sum_add_distrib, sum_range_list]
    omega

/-- What is added per copy is a lower bound: of the cost of an action, resp. the size of the decompositions of a task. -/
def CorrOK (P : Problem) (nA : Nat) (o : RcOpt) (W : Nat) : Prop :=
  o.correct = true → match o.est with
    | .costs => ∀ a < nA, P.cost a ≤ W
    | .mixed => True
    | .distance => 1 ≤ W ∧ ∀ t tr, Valid P t tr → o.mi t ≤ MinImplied.Tree.size P tr

/-- A network with a solution is not larger than the solution, measured by lower bounds for its tasks. -/
theorem sum_size_le {I : Finset Nat} {lab : Nat → Nat} {lt : Nat → Nat → Prop} {s : State} {π : List Nat} {k : Nat}
    (h : SolvesN P I lab lt s π k) {mi : Nat → Nat} (hmi : ∀ t tr, Valid P t tr → mi t ≤ MinImplied.Tree.size P tr) :
    ∑ u ∈ I, mi (lab u) ≤ k + π.length := by
  obtain ⟨tr, occ, hl, hk, -⟩ := solvesN_iff.1 h
  have h1 : ∑ u ∈ I, mi (lab u) ≤ ∑ u ∈ I, ((leafPaths P (tr u)).length + (tr u).inner P) :=
    Finset.sum_le_sum fun u hu => by rw [leafPaths_length]; exact hmi _ _ (hl.valid u hu)
  rw [Finset.sum_add_distrib, hk] at h1
  have h2 : (I.toList.flatMap fun u => (leafPaths P (tr u)).map fun p => (u, p)).length ≤ occ.length := by
    refine List.Subperm.length_le (List.subperm_of_subset ?_ fun x hx => ?_)
    · rw [List.nodup_flatMap]
      refine ⟨fun u _ => (leafPaths_nodup _).map fun a b h => by simpa using h, ?_⟩
      refine (Finset.nodup_toList I).imp fun {u v} huv x hx hy => ?_
      obtain ⟨p, -, rfl⟩ := List.mem_map.1 hx
      obtain ⟨q, -, h⟩ := List.mem_map.1 hy
      simp only [Prod.mk.injEq] at h
      exact huv h.1.symm
    · obtain ⟨u, hu, hx⟩ := List.mem_flatMap.1 hx
      obtain ⟨p, hp, rfl⟩ := List.mem_map.1 hx
      exact (hl.all _).2 ⟨Finset.mem_toList.1 hu, leafPaths_leaf _ _ hp⟩
  rw [hl.labels.length_eq, List.length_flatMap] at h2
  simp only [List.length_map] at h2
  rw [Finset.sum_map_toList] at h2
  omega

/-- The sum of weights over the steps of a network, by tasks. -/
theorem corrSum_le_sum {h : Heap} {n : Node} (hc : CounterOK h n) (w : Nat → Nat) :
    corrSum w n.contained ≤ ∑ u ∈ live h n, w (taskOf h u) := by
  have hk : (keys n.contained).Nodup := hc.1.sorted.imp fun h => Nat.ne_of_lt h
  have e1 : corrSum w n.contained = ∑ t ∈ (keys n.contained).toFinset, w t * (cnt n.contained t - 1) := by
    rw [List.sum_toFinset _ hk, corrSum, keys, List.map_map]
    congr 1
    refine List.map_congr_left fun e he => ?_
    simp only [Function.comp]
    rw [cnt_of_mem hc.1 (t := e.1) (k := e.2) he]
  have hmap : ∀ u ∈ live h n, taskOf h u ∈ (keys n.contained).toFinset := fun u hu => by
    rw [List.mem_toFinset, mem_keys_iff hc.1, hc.2, Finset.card_pos]
    exact ⟨u, Finset.mem_filter.2 ⟨hu, rfl⟩⟩
  rw [e1, ← Finset.sum_fiberwise_of_maps_to hmap]
  refine Finset.sum_le_sum fun t _ => ?_
  rw [Finset.sum_const_nat (m := w t) fun u hu => by rw [(Finset.mem_filter.1 hu).2], hc.2, Nat.mul_comm]
  exact Nat.mul_le_mul_right _ (Nat.sub_le _ _)

/-- The corrections do not exceed the size of a solution. -/
theorem corr_size (hP : P.WF) (hR : RcOK P nA nT) {h : Heap} {n : Node} (hn : NodeOK P h n) (hc : CounterOK h n)
    (hlab : ∀ u ∈ live h n, taskOf h u < nT) {o : RcOpt} {W : Nat} (hw : CorrOK P nA o W) (hcor : o.correct = true)
    {π k} (hs : NodeSol P h n π k) :
    corrSum (o.est.weight P nA o.mi) n.contained ≤ W * (k + π.length) := by
  have hw := hw hcor
  cases he : o.est with
  | mixed => simp [corrSum, Est.weight]
  | distance =>
    rw [he] at hw
    refine Nat.le_trans (corrSum_le_sum hc _) ?_
    simp only [Est.weight]
    refine Nat.le_trans (sum_size_le hs hw.2) ?_
    exact Nat.le_mul_of_pos_left _ hw.1
  | costs =>
    rw [he] at hw
    obtain ⟨-, k5, k6⟩ := relaxed_plan (cM := 0) (cA := 0) (S := (List.range (P.numFacts + nA + nT))) (G := []) hP hR hlab hs
      (fun f hf => List.mem_range.2 (by
        have := (List.getElem?_eq_some_iff.1 hf).1
        rw [hn.state_len] at this
        omega)) (fun u hu t ht _ => List.mem_range.2 (by simp only [tdr]; omega)) (by simp)
    have hb := corr_bound (P := P) (nT := nT) (ρ := []) (ms := []) hc.1 (fun a ha => by rw [hc.2]; exact k6 a ha) k5
      List.nodup_nil (by simp) o.mi
    have h2 : P.planCost π ≤ W * π.length := by
      clear hs k6 hb
      induction π with
      | nil => simp [Problem.planCost]
      | cons a π ih =>
        have h1 := ih fun b hb => k5 b (List.mem_cons_of_mem _ hb)
        have h2 := hw a (k5 a List.mem_cons_self)
        simp only [Problem.planCost, List.map_cons, List.sum_cons, List.length_cons, Nat.mul_add, Nat.mul_one] at h1 ⊢
        omega
    have h3 : W * π.length ≤ W * (k + π.length) := Nat.mul_le_mul_left _ (by omega)
    omega

end Verif.Rc
