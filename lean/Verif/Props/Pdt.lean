import Verif.MethodOrder
import Verif.PdtFilter
import Verif.Props.Ordering

/-! # C50 - C53: orders of methods, the path decomposition tree, pruning -/

namespace Verif.Props

open Verif.Htn Verif.Pdt Verif.Sog Verif.MethodOrder Verif.Ordering Verif.Inv Relation

/-! ## C50 -/

theorem rank_of_so {n : Nat} {T : Nat → Nat → Prop} (h : SO n T) : ∃ rank : Nat → Nat, ∀ a b, T a b → rank a < rank b := by
  classical
  refine ⟨fun b => ((Finset.range n).filter fun a => T a b).card, fun a b hab => Finset.card_lt_card ?_⟩
  rw [Finset.ssubset_iff_of_subset]
  · exact ⟨a, by simp [hab, (h.lt a b hab).1], by simp [h.irr]⟩
  · intro x hx
    simp only [Finset.mem_filter, Finset.mem_range] at hx ⊢
    exact ⟨hx.1, h.trans _ _ _ hx.2 hab⟩

/-- C50: for acyclic orderings the computed order lists every subtask exactly once and respects all orderings. -/
theorem C50_linearisation (n : Nat) (adj : Nat → List Nat) (hb : ∀ a, ∀ b ∈ adj a, a < n ∧ b < n)
    (hac : ∀ a, ¬ TransGen (fun x y => y ∈ adj x) a a) :
    ∃ l flag, isMethodTotallyOrdered n adj = some (l, flag) ∧ l.Perm (List.range n) ∧
      ∀ (i j a b : Nat), l[i]? = some a → l[j]? = some b → b ∈ adj a → i < j := by
  have hso : SO n (TransGen fun x y => y ∈ adj x) := ⟨fun x y h =>
    ⟨(TransGen.head'_iff.1 h).elim fun b h => (hb x b h.1).1, (TransGen.tail'_iff.1 h).elim fun b h => (hb b y h.2).2⟩,
    fun _ _ _ => TransGen.trans, hac⟩
  obtain ⟨rank, hr⟩ := rank_of_so hso
  obtain ⟨l, h1, h2, h3⟩ := methodOrder_spec (n := n) (adj := adj) (fun a b h => hr a b (.single h)) fun a b h => (hb a b h).2
  refine ⟨l, _, by rw [isMethodTotallyOrdered, h1]; rfl, h2, fun i j a b hi hj hab => ?_⟩
  obtain ⟨hi', rfl⟩ := List.getElem?_eq_some_iff.1 hi
  obtain ⟨hj', rfl⟩ := List.getElem?_eq_some_iff.1 hj
  rcases Nat.lt_trichotomy i j with h | h | h
  · exact h
  · subst h
    exact absurd (TransGen.single hab) (hac _)
  · exact absurd hab (List.pairwise_iff_getElem.1 h3 j i hj' hi' h)

/-- C50: if the orderings are transitively closed, the verdict is exact: the method counts as totally ordered iff every
two subtasks are ordered. -/
theorem C50_flag_exact (n : Nat) (adj : Nat → List Nat) (hb : ∀ a, ∀ b ∈ adj a, a < n ∧ b < n) (hirr : ∀ a, a ∉ adj a)
    (htr : ∀ a b c, b ∈ adj a → c ∈ adj b → c ∈ adj a) (l : List Nat) (flag : Bool)
    (h : isMethodTotallyOrdered n adj = some (l, flag)) :
    (flag = true ↔ ∀ a < n, ∀ b < n, a ≠ b → b ∈ adj a ∨ a ∈ adj b) ∧ (flag = true → l.Pairwise fun a b => b ∈ adj a) := by
  have hso : SO n fun x y => y ∈ adj x := ⟨fun x y h => hb x y h, fun x y z h h' => htr x y z h h', hirr⟩
  obtain ⟨rank, hr⟩ := rank_of_so hso
  obtain ⟨l', h1, h2, h3⟩ := methodOrder_spec (n := n) (adj := adj) hr fun a b h => (hb a b h).2
  rw [isMethodTotallyOrdered, h1, Option.map_some, Option.some.injEq, Prod.mk.injEq] at h
  obtain ⟨rfl, rfl⟩ := h
  have hpw : consecutive adj l' = true → l'.Pairwise fun a b => b ∈ adj a := by
    intro hc
    rw [consecutive_iff] at hc
    haveI : IsTrans Nat fun a b => b ∈ adj a := ⟨fun a b c h h' => htr a b c h h'⟩
    exact hc.pairwise
  refine ⟨⟨fun hc a ha b hb' hne => ?_, fun hall => ?_⟩, hpw⟩
  · obtain ⟨i, hi, rfl⟩ := List.mem_iff_getElem.1 (h2.mem_iff.2 (List.mem_range.2 ha))
    obtain ⟨j, hj, rfl⟩ := List.mem_iff_getElem.1 (h2.mem_iff.2 (List.mem_range.2 hb'))
    rcases Nat.lt_trichotomy i j with h | h | h
    · exact .inl (List.pairwise_iff_getElem.1 (hpw hc) i j hi hj h)
    · subst h; exact absurd rfl hne
    · exact .inr (List.pairwise_iff_getElem.1 (hpw hc) j i hj hi h)
  · rw [consecutive_iff]
    refine List.Pairwise.isChain ?_
    have hnd : l'.Nodup := h2.nodup_iff.2 List.nodup_range
    rw [List.pairwise_iff_getElem]
    intro i j hi hj hij
    have hne : l'[i] ≠ l'[j] := fun he => by
      have := (List.Nodup.getElem_inj_iff hnd).1 he
      omega
    rcases hall _ (List.mem_range.1 (h2.mem_iff.1 (List.getElem_mem hi))) _
      (List.mem_range.1 (h2.mem_iff.1 (List.getElem_mem hj))) hne with h | h
    · exact h
    · exact absurd h (List.pairwise_iff_getElem.1 h3 i j hi hj hij)

/-- C50: as used by the SAT planner, after the closure (C09): in a problem whose methods are all totally ordered, the
computed orders list the subtasks of each method in their order, whatever the iteration order of the hash sets. -/
theorem C50_total_order (P : Problem) (hP : P.WF) (adj : Nat → Nat → List Nat) (F : Ordering.Flags)
    (hadj : ∀ m < P.numMethods, ∃ o, transitiveChange true (P.sub m).length (P.ord m) false F = some (o, F) ∧
      ∀ i j, j ∈ adj m i ↔ (i, j) ∈ o)
    (htot : ∀ m < P.numMethods, ∀ i < (P.sub m).length, ∀ j < (P.sub m).length, i ≠ j →
      TransGen (P.OrdRel m) i j ∨ TransGen (P.OrdRel m) j i) :
    ∃ tot : Nat → List Nat, (∀ m < P.numMethods, isMethodTotallyOrdered (P.sub m).length (adj m) = some (tot m, true)) ∧
      TotOK P tot := by
  have key : ∀ m < P.numMethods, ∃ l, isMethodTotallyOrdered (P.sub m).length (adj m) = some (l, true) ∧
      l.Perm (List.range (P.sub m).length) ∧ l.Pairwise fun i j => TransGen (P.OrdRel m) i j := by
    intro m hm
    obtain ⟨o, ho, hmem⟩ := hadj m hm
    obtain ⟨o', ho', -, hcl⟩ := C09_transitive_closure (n := (P.sub m).length) (ord := P.ord m) (isInit := false) (F := F)
      fun p hp => hP.ord_lt m hm p.1 p.2 hp
    rw [ho] at ho'
    obtain rfl : o = o' := by simpa using ho'
    have hiff : ∀ i j, j ∈ adj m i ↔ TransGen (P.OrdRel m) i j := fun i j => by rw [hmem, hcl]; rfl
    obtain ⟨rank, hr⟩ := hP.ord_acyclic m hm
    have hlt : ∀ i j, TransGen (P.OrdRel m) i j → i < (P.sub m).length ∧ j < (P.sub m).length := fun i j h =>
      ⟨(TransGen.head'_iff.1 h).elim fun b h => (hP.ord_lt m hm i b h.1).1,
       (TransGen.tail'_iff.1 h).elim fun b h => (hP.ord_lt m hm b j h.2).2⟩
    have hirr : ∀ a, a ∉ adj m a := fun a h => by
      have := transGen_rank hr ((hiff a a).1 h)
      omega
    have htr : ∀ a b c, b ∈ adj m a → c ∈ adj m b → c ∈ adj m a := fun a b c h h' =>
      (hiff a c).2 (((hiff a b).1 h).trans ((hiff b c).1 h'))
    have hb : ∀ a, ∀ b ∈ adj m a, a < (P.sub m).length ∧ b < (P.sub m).length := fun a b h => hlt a b ((hiff a b).1 h)
    obtain ⟨l, flag, h1, h2, -⟩ := C50_linearisation _ (adj m) hb fun a h => by
      have : ∀ x y, TransGen (fun x y => y ∈ adj m x) x y → y ∈ adj m x := by
        intro x y h
        induction h with
        | single h => exact h
        | tail _ h ih => exact htr _ _ _ ih h
      exact hirr a (this a a h)
    obtain ⟨h3, h4⟩ := C50_flag_exact _ (adj m) hb hirr htr l flag h1
    have hf : flag = true := h3.2 fun a ha b hb' hne => by
      rw [hiff, hiff]; exact htot m hm a ha b hb' hne
    subst hf
    exact ⟨l, h1, h2, (h4 rfl).imp fun h => (hiff _ _).1 h⟩
  classical
  refine ⟨fun m => if h : m < P.numMethods then (key m h).choose else [], fun m hm => ?_, fun m hm => ?_⟩
  · simp only [dif_pos hm]; exact (key m hm).choose_spec.1
  · simp only [dif_pos hm]; exact (key m hm).choose_spec.2

/-- Three subtasks 2, 0, 1 in this order: the computed order is the right one. -/
example : isMethodTotallyOrdered 3 (fun i => if i = 2 then [1, 0] else if i = 0 then [1] else []) = some ([2, 0, 1], true) := by
  simp [isMethodTotallyOrdered, methodOrder, outer, dfs, dfsAll, List.range_succ, consecutive, Function.update]

/-- Two subtasks that are not ordered. -/
example : isMethodTotallyOrdered 3 (fun i => if i = 2 then [1, 0] else []) = some ([2, 1, 0], false) := by
  simp [isMethodTotallyOrdered, methodOrder, outer, dfs, dfsAll, List.range_succ, consecutive, Function.update]

/-! ## C51 -/

/-- C51: sharing positions between methods.  Given methods of which the first is a longest one (they are sorted by
length), every method gets an increasing assignment of its subtasks, in the method's order, to the positions; the number
of positions is the length of the longest method, except in the mode that keeps actions without effects apart. -/
theorem C51_placement (P : Problem) (tot : Nat → List Nat) (compact : Bool) (ms : List Nat)
    (ht : ∀ m ∈ ms, (tot m).Perm (List.range (P.sub m).length))
    (hs : ms.Pairwise fun a b => (P.sub b).length ≤ (P.sub a).length) (hb : numVertices P tot compact ms ≤ 65536) :
    ∃ nv maps, placeTO P tot compact ms = some (nv, maps) ∧ (compact = false → ∀ m ∈ ms.head?, nv = (P.sub m).length) ∧
      List.Forall₂ (fun m mp => mp.length = (P.sub m).length ∧ (∀ i < (P.sub m).length, ∃ v < nv, mp[i]? = some v) ∧
        ∀ (x y i j u v : Nat), x < y → (tot m)[x]? = some i → (tot m)[y]? = some j → mp[i]? = some u → mp[j]? = some v → u < v) ms maps := by
  obtain ⟨nv, maps, h1, h2, -, h4⟩ := placeTO_spec (P := P) (tot := tot) (compact := compact) (ms := ms) ht (by
    intro m hm m' hm'
    cases ms with
    | nil => simp at hm
    | cons a ms =>
      simp only [List.head?_cons, Option.mem_def, Option.some.injEq] at hm'
      subst hm'
      rcases List.mem_cons.1 hm with rfl | hm
      · exact Nat.le_refl _
      · exact (List.pairwise_cons.1 hs).1 m hm) hb
  refine ⟨nv, maps, h1, fun hc m hm => ?_, ?_⟩
  · subst hc
    cases ms with
    | nil => simp at hm
    | cons a ms =>
      simp only [List.head?_cons, Option.mem_def, Option.some.injEq] at hm
      subst hm
      simp only [placeTO, Bool.false_eq_true, if_false, Option.map_eq_some_iff] at h1
      obtain ⟨_, -, h⟩ := h1
      exact (congrArg Prod.fst h).symm
  · have : ∀ (ms : List Nat) (maps : List (List Nat)), (∀ m ∈ ms, (tot m).Perm (List.range (P.sub m).length)) →
        List.Forall₂ (fun m mp => Placed (tot m) nv mp) ms maps → List.Forall₂ (fun m mp => mp.length = (P.sub m).length ∧
        (∀ i < (P.sub m).length, ∃ v < nv, mp[i]? = some v) ∧
        ∀ (x y i j u v : Nat), x < y → (tot m)[x]? = some i → (tot m)[y]? = some j → mp[i]? = some u → mp[j]? = some v → u < v) ms maps := by
      intro ms maps ht h
      induction h with
      | nil => exact .nil
      | @cons m mp ms maps hp _ ih =>
        refine .cons ?_ (ih fun m' hm' => ht m' (List.mem_cons_of_mem _ hm'))
        have hperm := ht m List.mem_cons_self
        have hlen : mp.length = (P.sub m).length := by rw [hp.length, hperm.length_eq, List.length_range]
        refine ⟨hlen, fun i hi => ?_, fun x y i j u v hxy hx hy hu hv => ?_⟩
        · have := hp.lt i (hperm.mem_iff.2 (List.mem_range.2 hi))
          rw [List.getD_eq_getElem _ _ (by omega)] at this
          exact ⟨_, this, List.getElem?_eq_getElem (by omega)⟩
        · obtain ⟨hx', rfl⟩ := List.getElem?_eq_some_iff.1 hx
          obtain ⟨hy', rfl⟩ := List.getElem?_eq_some_iff.1 hy
          have := List.pairwise_iff_getElem.1 hp.mono x y hx' hy' hxy
          rw [List.getD_eq_getElem?_getD, List.getD_eq_getElem?_getD, hu, hv] at this
          exact this
    exact this ms maps ht h4

/-! ## C52 -/

/-- C52: without the compact mode the tree can be computed to every depth without undefined behaviour. -/
theorem C52_defined (P : Problem) (hP : P.WF) (cfg : Cfg) (hc : CfgOK P cfg) (hcf : cfg.compact = false) (K : Nat) :
    ¬ Stuck P cfg K := not_stuck hP hc hcf

/-- C52: every consistent choice of tasks and methods in the tree of depth `K` is a decomposition with at most `K`
methods on each path, and the actions chosen at the leaves, from left to right, are a linearisation of it. -/
theorem C52_choice_is_decomposition (P : Problem) (hP : P.WF) (cfg : Cfg) (hc : CfgOK P cfg) (hpo : cfg.po = false) (hto : TotOK P cfg.tot) (K : Nat)
    (hst : ¬ Stuck P cfg K) (sel : Path → Sel) (hs : Consistent P (tree P cfg K) sel) :
    ∃ tr occ, Valid P P.init tr ∧ HeightLE P tr K ∧ Linearises P tr occ (planOf (tree P cfg K) sel) := by
  obtain ⟨tr, h1, h2, h3⟩ := plan_of_selection (tree_ok hP hc hst) (tree_seq hP hc hst hpo) hc.tot hs
  exact ⟨tr, _, h1, h2, by rw [h3]; exact linearises_canon hP hto h1⟩

/-- C52: and every linearisation of every such decomposition is obtained in this way. -/
theorem C52_decomposition_is_choice (P : Problem) (hP : P.WF) (cfg : Cfg) (hc : CfgOK P cfg) (hpo : cfg.po = false) (hto : TotOK P cfg.tot) (K : Nat)
    (hall : AllMeth P) (hst : ¬ Stuck P cfg K) (tr : Tree) (hv : Valid P P.init tr) (hh : HeightLE P tr K)
    (occ : List (List Nat)) (π : List Nat) (hl : Linearises P tr occ π) :
    ∃ sel, Consistent P (tree P cfg K) sel ∧ planOf (tree P cfg K) sel = π := by
  obtain ⟨sel, h1, h2⟩ := selection_of_tree (tree_ok hP hc hst) (tree_seq hP hc hst hpo) hc.tot hall hP.head_abs (fun _ _ _ h => h) hv hh
  exact ⟨sel, h1, by rw [h2, linearises_unique hP hto hv hl]⟩

/-- Actions 0, 1; the initial task 2 is decomposed into 0 or into 3, task 3 into 4, task 4 into 1. -/
def stuckP : Problem where
  numFacts := 1
  prim := fun t => decide (t < 2)
  prec := fun _ => []
  add := fun a => if a < 2 then [0] else []
  del := fun _ => []
  cost := fun _ => 1
  numMethods := 4
  head := fun m => if m < 2 then 2 else m + 1
  sub := fun m => if m = 0 then [0] else if m = 1 then [3] else if m = 2 then [4] else [1]
  ord := fun _ => []
  init := 2
  s0 := []
  goal := [0]

/-- The compact mode for it. -/
def stuckCfg : Cfg where
  tot := fun _ => [0]
  compact := true
  sortM := List.insertionSort fun a b => (stuckP.sub b.1).length ≤ (stuckP.sub a.1).length

/-- C52 fails in the compact mode: the problem is solvable by decompositions of height 1, but when the second level is
expanded, the number of effects of an abstract task is read, beyond the end of the array. -/
theorem C52_compact_violated : Stuck stuckP stuckCfg 2 ∧ SolutionOfHeight stuckP 1 [0] := by
  constructor
  · exact ⟨[0], ⟨[0], [3], [[.meth 0 0]], [[.meth 0 1]]⟩, by decide +kernel, by decide, by decide, by decide +kernel⟩
  · have hwf : stuckP.WF := by
      refine ⟨by intro m _ i j h; simp [stuckP] at h, fun m _ => ⟨id, fun i j h => by simp [stuckP] at h⟩, by decide, by decide,
        by decide, by intro a f h; simp [stuckP] at h, ?_, by intro a f h; simp [stuckP] at h, by decide, by decide⟩
      intro a f hf
      simp only [stuckP] at hf ⊢
      split_ifs at hf <;> simp at hf
      omega
    have htot : TotOK stuckP stuckCfg.tot := by
      intro m hm
      match m, hm with
      | 0, _ | 1, _ | 2, _ | 3, _ => exact ⟨by decide, by simp [stuckCfg]⟩
    rw [solutionOfHeight_iff hwf htot]
    refine ⟨.node 0 fun _ => .leaf 0, Valid.node (P := stuckP) (m := 0) (by decide) fun i t hi => ?_, .node fun i _ => .leaf, by decide, _,
      .cons (by simp [Problem.Applicable, stuckP]) (.nil _), by simp [Problem.GoalState, Problem.result, stuckP]⟩
    have h0 := (List.getElem?_eq_some_iff.1 hi).1
    have : i = 0 := by simpa [stuckP] using h0
    subst this
    obtain rfl : 0 = t := by simpa [stuckP] using hi
    exact .leaf (by decide)

/-! ## C53 -/

/-- C53: the pruning terminates, and it removes no task and no method that occurs in a decomposition with at most `K`
methods on each path whose actions can be executed (mode h2: and do not add and delete the same fact). -/
theorem C53_keeps_solutions (P : Problem) (hP : P.WF) (cfg : Cfg) (hc : CfgOK P cfg) (K : Nat) (hst : ¬ Stuck P cfg K)
    (hall : AllMeth P) (mode : Mode) :
    ∃ S, prune P (tree P cfg K) mode = some S ∧ ∀ sel, Consistent P (tree P cfg K) sel →
      (∃ s', Exec P P.initState (planOf (tree P cfg K) sel) s') →
      (mode = .h2 → ∀ a ∈ planOf (tree P cfg K) sel, ∀ f ∈ P.add a, f ∉ P.del a) → ∀ p,
        (∀ i, sel p = .prim i → S (.prim p i) = false) ∧
        ∀ a m, sel p = .abs a m → S (.abs p a) = false ∧ S (.meth p a m) = false := by
  obtain ⟨S, h1, -, h3⟩ := prune_spec (tree_ok hP hc hst) hc.tot hall mode
  exact ⟨S, h1, fun sel hs hx hna p => ⟨fun i hi => h3 sel hs hx hna _ hi, fun a m ha => ⟨h3 sel hs hx hna _ ⟨m, ha⟩, h3 sel hs hx hna _ ha⟩⟩⟩

/-- C53: if the initial task is pruned, which makes the planner go on to the next depth without calling the solver,
there is no solution with at most `K` methods on each path (mode h2: of actions that do not add and delete the same
fact). -/
theorem C53_root_pruned (P : Problem) (hP : P.WF) (cfg : Cfg) (hc : CfgOK P cfg) (hpo : cfg.po = false) (hto : TotOK P cfg.tot) (K : Nat)
    (hst : ¬ Stuck P cfg K) (hall : AllMeth P) (mode : Mode) (S : Pdt.Flags)
    (hS : prune P (tree P cfg K) mode = some S) (hr : S (.abs [] 0) = true) :
    ¬ ∃ π, SolutionOfHeight P K π ∧ (mode = .h2 → ∀ a ∈ π, ∀ f ∈ P.add a, f ∉ P.del a) := by
  rintro ⟨π, hπ, hna⟩
  obtain ⟨tr, hv, hh, rfl, s', hex, -⟩ := (solutionOfHeight_iff hP hto).1 hπ
  have hto' := tree_ok hP hc hst
  obtain ⟨sel, h1, h2⟩ := selection_of_tree hto' (tree_seq hP hc hst hpo) hc.tot hall hP.head_abs (fun _ _ _ h => h) hv hh
  obtain ⟨S', e, h3⟩ := C53_keeps_solutions P hP cfg hc K hst hall mode
  rw [hS] at e
  obtain rfl := Option.some.inj e
  obtain ⟨m, hm⟩ := h1.root
  have := ((h3 sel h1 ⟨s', by rw [h2]; exact hex⟩ (by rw [h2]; exact hna) []).2 0 m hm).1
  rw [hr] at this
  exact absurd this (by simp)

/-- C53: what remains is closed.  An abstract task that is left in an expanded vertex has a method that is left, and a
method that is left belongs to a task that is left; the tasks that a remaining method or primitive puts into the children
are left; each remaining task below the root is put there by a remaining method or primitive of the mother; leaves have no
remaining abstract tasks. -/
theorem C53_closed (P : Problem) (hP : P.WF) (cfg : Cfg) (hc : CfgOK P cfg) (K : Nat) (hst : ¬ Stuck P cfg K)
    (hall : AllMeth P) (mode : Mode) (S : Pdt.Flags)
    (hS : prune P (tree P cfg K) mode = some S) :
    (∀ p d a x, (tree P cfg K).nd p = some d → d.abss[a]? = some x → S (.abs p a) = false →
      (tree P cfg K).ex p ≠ none ∧ ∃ m < (meths P x).length, S (.meth p a m) = false) ∧
    (∀ p d a x m, (tree P cfg K).nd p = some d → (tree P cfg K).ex p ≠ none → d.abss[a]? = some x → m < (meths P x).length →
      S (.meth p a m) = false → S (.abs p a) = false) ∧
    (∀ p d e a x m c q, (tree P cfg K).nd p = some d → (tree P cfg K).ex p = some e → d.abss[a]? = some x →
      m < (meths P x).length → S (.meth p a m) = false → e.ptr a m c = some q →
      if q.isPrim then S (.prim (c :: p) q.task) = false else S (.abs (c :: p) q.task) = false) ∧
    (∀ p d e i c j k, (tree P cfg K).nd p = some d → (tree P cfg K).ex p = some e → i < d.prims.length →
      S (.prim p i) = false → e.posP[i]? = some (c, j, k) → S (.prim (c :: p) j) = false) ∧
    (∀ p c d b (j : Nat) cs, (tree P cfg K).nd (c :: p) = some d → (d.causes b)[j]? = some cs →
      S (if b then .prim (c :: p) j else .abs (c :: p) j) = false → ∃ x ∈ cs, S (motherFlag p x) = false) := by
  have ht := tree_ok hP hc hst
  obtain ⟨S', e, hl, -⟩ := prune_spec ht hc.tot hall mode
  rw [hS] at e
  obtain rfl := Option.some.inj e
  clear hS
  generalize tree P cfg K = t at *
  have hft : ∀ f, ¬ S f = true → S f = false := fun f h => by simpa using h
  have htf : ∀ f, S f = false → S f = true → False := fun f h h' => by rw [h] at h'; exact absurd h' (by simp)
  refine ⟨fun p d a x hd hx hs => ⟨fun he => ?_, ?_⟩, fun p d a x m hd he hx hm hs => hft _ fun h => ?_,
    fun p d e a x m c q hd he hx hm hs hq => ?_, fun p d e i c j k hd he hi hs hpos => hft _ fun h => ?_,
    fun p c d b j cs hd hcs hs => ?_⟩
  · exact htf _ hs ((hl p).unexp d hd he a (List.getElem?_eq_some_iff.1 hx).1)
  · by_contra hno
    push Not at hno
    refine htf _ hs ((hl p).meths d x a hd hx (fun he => ?_) fun m hm => by simpa using hno m hm)
    exact htf _ hs ((hl p).unexp d hd he a (List.getElem?_eq_some_iff.1 hx).1)
  · exact htf _ hs ((hl p).absMeth d x a m hd hx he h hm)
  · obtain ⟨dp, hdp, -, -, hexp, -⟩ := ht.ex p e he
    obtain ⟨ch, hch, cs, hcs, hk⟩ := hexp.ptr_cause a m c q hq
    have hnd := (ht.child c p ch).2 ⟨e, he, hch⟩
    obtain ⟨b, j, k⟩ := q
    cases b with
    | true =>
      refine hft _ fun h => htf _ hs ?_
      have hj : j < ch.prims.length := by
        rw [← hexp.lenP c ch hch]; exact (List.getElem?_eq_some_iff.1 hcs).1
      exact ((hl (c :: p)).primCause ch j cs k _ c p hnd rfl hj hcs hk h).2
    | false =>
      refine hft _ fun h => htf _ hs ?_
      have hj : j < ch.abss.length := by
        rw [← hexp.lenA c ch hch]; exact (List.getElem?_eq_some_iff.1 hcs).1
      exact ((hl (c :: p)).absCause ch j cs k _ c p hnd rfl hj hcs hk h).2
  · obtain ⟨dp, hdp, -, -, hexp, -⟩ := ht.ex p e he
    obtain ⟨ch, hch, hp, cs, hcs, hk⟩ := hexp.pos_inh i c j k hpos
    have hnd := (ht.child c p ch).2 ⟨e, he, hch⟩
    have hj : j < ch.prims.length := by
      rw [← hexp.lenP c ch hch]; exact (List.getElem?_eq_some_iff.1 hcs).1
    exact htf _ hs ((hl (c :: p)).primCause ch j cs k _ c p hnd rfl hj hcs hk h).2
  · obtain ⟨e, he, hch⟩ := (ht.child c p d).1 hd
    obtain ⟨dp, hdp, -, -, hexp, -⟩ := ht.ex p e he
    by_contra hno
    push Not at hno
    have hcause : ∀ k < cs.length, S (causeFlag b (c :: p) j k) = true := by
      intro k hk
      have hk' : cs[k]? = some cs[k] := List.getElem?_eq_getElem hk
      have hm := hno _ (List.getElem_mem hk)
      cases hx : cs[k] with
      | meth ti mi =>
        rw [hx] at hk' hm
        obtain ⟨h1, m, x, h2, h3⟩ := hexp.cause_ptr c d b j cs k ti mi hch hcs hk'
        exact (hl p).methChild dp e x ti mi c _ hdp he h2 (List.getElem?_eq_some_iff.1 h3).1 h1 (by simpa [motherFlag] using hm)
      | inh i =>
        rw [hx] at hk' hm
        obtain ⟨rfl, h1⟩ := hexp.inh_pos c d b j cs k i hch hcs hk'
        have hlen := hexp.lenPos (fun h => by rw [h] at hch; simp at hch)
        exact (hl p).primChild dp e i c j k hdp he (by rw [← hlen]; exact (List.getElem?_eq_some_iff.1 h1).1) h1
          (by simpa [motherFlag] using hm)
    cases b with
    | true =>
      have hj : j < d.prims.length := by
        rw [← hexp.lenP c d hch]; exact (List.getElem?_eq_some_iff.1 hcs).1
      exact htf _ hs ((hl (c :: p)).causesP d j cs hd (by simp) hj hcs hcause)
    | false =>
      have hj : j < d.abss.length := by
        rw [← hexp.lenA c d hch]; exact (List.getElem?_eq_some_iff.1 hcs).1
      exact htf _ hs ((hl (c :: p)).causesA d j cs hd (by simp) hj hcs hcause)

/-! ## A concrete problem -/

/-- Actions 0 (adds fact 0) and 1 (needs fact 0, adds fact 1, deletes fact 0); the initial task 2 is decomposed into 0, 3;
task 3 into 1 or into 1, 0, 3. -/
def pdtP : Problem where
  numFacts := 2
  prim := fun t => decide (t < 2)
  prec := fun a => if a = 1 then [0] else []
  add := fun a => if a = 0 then [0] else if a = 1 then [1] else []
  del := fun a => if a = 1 then [0] else []
  cost := fun _ => 1
  numMethods := 3
  head := fun m => if m = 0 then 2 else 3
  sub := fun m => if m = 0 then [0, 3] else if m = 1 then [1] else [1, 0, 3]
  ord := fun m => if m = 0 then [(0, 1)] else if m = 1 then [] else [(0, 1), (1, 2)]
  init := 2
  s0 := []
  goal := [1]

/-- The configuration with stable sorting. -/
def pdtCfg : Cfg where
  tot := fun m => if m = 0 then [0, 1] else if m = 1 then [0] else [0, 1, 2]
  compact := false
  sortM := List.insertionSort fun a b => (pdtP.sub b.1).length ≤ (pdtP.sub a.1).length

theorem pdtP_wf : pdtP.WF := by
  refine ⟨?_, ?_, by decide, by decide, by decide, ?_, ?_, ?_, by decide, by decide⟩
  · intro m hm i j h
    match m, hm with
    | 0, _ => simp [pdtP] at h ⊢; omega
    | 1, _ => simp [pdtP] at h
    | 2, _ => simp [pdtP] at h ⊢; omega
  · intro m hm
    refine ⟨id, fun i j h => ?_⟩
    match m, hm with
    | 0, _ => simp [pdtP] at h ⊢; omega
    | 1, _ => simp [pdtP] at h
    | 2, _ => simp [pdtP] at h ⊢; omega
  all_goals
    intro a f hf
    simp only [pdtP] at hf ⊢
    split_ifs at hf <;> simp at hf <;> omega

theorem pdtCfg_ok : CfgOK pdtP pdtCfg := by
  have hsort : SortOK pdtP pdtCfg.sortM := by
    intro l
    refine ⟨List.perm_insertionSort _ _, ?_⟩
    haveI : Std.Total fun a b : Nat × Nat × Nat => (pdtP.sub b.1).length ≤ (pdtP.sub a.1).length := ⟨fun a b => Nat.le_total _ _⟩
    haveI : IsTrans (Nat × Nat × Nat) fun a b => (pdtP.sub b.1).length ≤ (pdtP.sub a.1).length := ⟨fun a b c h h' => Nat.le_trans h' h⟩
    exact List.pairwise_insertionSort _ _
  refine ⟨by decide, hsort, fun d _ => ?_, fun h => by simp [pdtCfg] at h⟩
  cases h : (pdtCfg.sortM (applicable pdtP d)).map (·.1) with
  | nil => exact Nat.zero_le _
  | cons m ms =>
    show (pdtP.sub m).length ≤ 65536
    simp only [pdtP]
    split_ifs <;> simp

theorem pdtP_tot : TotOK pdtP pdtCfg.tot := by
  have h : ∀ m i j, (i, j) ∈ pdtP.ord m → TransGen (pdtP.OrdRel m) i j := fun m i j h => .single h
  intro m hm
  match m, hm with
  | 0, _ => exact ⟨by decide, by simpa [pdtCfg] using h 0 0 1 (by decide)⟩
  | 1, _ => exact ⟨by decide, by simp [pdtCfg]⟩
  | 2, _ =>
    refine ⟨by decide, ?_⟩
    have h1 := h 2 0 1 (by decide)
    have h2 := h 2 1 2 (by decide)
    simpa [pdtCfg] using ⟨⟨h1, h1.trans h2⟩, h2⟩

theorem pdtP_allMeth : AllMeth pdtP := by
  refine ⟨⟨0, by decide, rfl⟩, ?_⟩
  decide

theorem pdtP_noClash : ∀ a, ∀ f ∈ pdtP.add a, f ∉ pdtP.del a := by
  intro a f hf
  simp only [pdtP] at hf ⊢
  split_ifs at hf <;> simp_all

/-- The hypotheses of C52 and C53 hold. -/
example : pdtP.WF ∧ CfgOK pdtP pdtCfg ∧ pdtCfg.po = false ∧ TotOK pdtP pdtCfg.tot ∧ AllMeth pdtP ∧ (∀ a, ∀ f ∈ pdtP.add a, f ∉ pdtP.del a) ∧ ∀ K, ¬ Stuck pdtP pdtCfg K :=
  ⟨pdtP_wf, pdtCfg_ok, rfl, pdtP_tot, pdtP_allMeth, pdtP_noClash, fun K => C52_defined _ pdtP_wf _ pdtCfg_ok rfl K⟩

/-- The solution 0, 1 of height 2. -/
theorem pdtP_solution : SolutionOfHeight pdtP 2 [0, 1] := by
  rw [solutionOfHeight_iff pdtP_wf pdtP_tot]
  refine ⟨.node 0 fun i => if i = 0 then .leaf 0 else .node 1 fun _ => .leaf 1,
    Valid.node (P := pdtP) (m := 0) (by decide) fun i t hi => ?_, .node fun i hi => ?_,
    by decide, _, .cons (by simp [Problem.Applicable, pdtP]) (.cons ?_ (.nil _)), ?_⟩
  · match i, hi with
    | 0, hi => obtain rfl : 0 = t := by simpa [pdtP] using hi
               exact .leaf (by decide)
    | 1, hi =>
      obtain rfl : 3 = t := by simpa [pdtP] using hi
      refine Valid.node (P := pdtP) (m := 1) (by decide) fun i t hi => ?_
      match i, hi with
      | 0, hi => obtain rfl : 1 = t := by simpa [pdtP] using hi
                 exact .leaf (by decide)
  · match i, hi with
    | 0, _ => exact .leaf
    | 1, _ => exact .node fun i hi => .leaf
  · simp [Problem.Applicable, Problem.result, pdtP]
  · simp [Problem.GoalState, Problem.result, pdtP]

/-- The children of the root of the tree and of its second child. -/
example : (exAt pdtP pdtCfg 2 []).map (·.children) = some [⟨[0], [], [[.meth 0 0]], []⟩, ⟨[], [3], [], [[.meth 0 0]]⟩] ∧
    ((exAt pdtP pdtCfg 2 [1]).map (·.children)).map (·.map (·.prims)) = some [[1], [0], []] := by
  decide +kernel

end Verif.Props
