import Verif.ProgressionInv
import Mathlib.Data.List.MinMax
import Mathlib.Data.Finset.Lattice.Fold
import Mathlib.Algebra.BigOperators.Ring.Finset

/-! # `decompose` (without automatic progression) is substitution -/

namespace Verif.Prog

open Verif.Htn Verif.TaskCounter Relation

variable {P : Problem} {cfg : Cfg}

/-! ## Positions inside a method -/

theorem isLast_iff {m i} : isLast P m i = true ↔ ∀ j, (i, j) ∉ P.ord m := by
  simp only [isLast, Bool.not_eq_true', List.any_eq_false, beq_iff_eq]
  constructor
  · intro h j hj; exact h (i, j) hj rfl
  · rintro h ⟨a, b⟩ ho rfl; exact h b ho

theorem mem_firstTasks {m i} : i ∈ firstTasks P m ↔ i < (P.sub m).length ∧ ∀ j, (j, i) ∉ P.ord m := by
  simp only [firstTasks, List.mem_filter, List.mem_range, Bool.not_eq_true', List.any_eq_false,
    beq_iff_eq]
  refine and_congr_right fun _ => ?_
  constructor
  · intro h j hj; exact h (j, i) hj rfl
  · rintro h ⟨a, b⟩ ho rfl; exact h a ho

theorem exists_last (hP : P.WF) {m} (hm : m < P.numMethods) {i} (hi : i < (P.sub m).length) :
    ∃ l, l < (P.sub m).length ∧ ReflTransGen (P.OrdRel m) i l ∧ isLast P m l = true := by
  obtain ⟨rank, hr⟩ := hP.ord_acyclic m hm
  have hbound : ∀ j < (P.sub m).length, rank j ≤ (Finset.range (P.sub m).length).sup rank :=
    fun j hj => Finset.le_sup (f := rank) (Finset.mem_range.2 hj)
  generalize (Finset.range (P.sub m).length).sup rank = M at hbound
  induction hk : M - rank i using Nat.strong_induction_on generalizing i with
  | _ k ih =>
  by_cases hl : isLast P m i = true
  · exact ⟨i, hi, .refl, hl⟩
  · rw [isLast_iff] at hl
    push Not at hl
    obtain ⟨j, hj⟩ := hl
    have hlt := hr i j hj
    have hjl := (hP.ord_lt m hm i j hj).2
    have := hbound j hjl
    obtain ⟨l, h1, h2, h3⟩ := ih (M - rank j) (by omega) hjl rfl
    exact ⟨l, h1, ReflTransGen.head hj h2, h3⟩

theorem exists_first (hP : P.WF) {m} (hm : m < P.numMethods) {i} (hi : i < (P.sub m).length) :
    ∃ l ∈ firstTasks P m, ReflTransGen (P.OrdRel m) l i := by
  obtain ⟨rank, hr⟩ := hP.ord_acyclic m hm
  induction hk : rank i using Nat.strong_induction_on generalizing i with
  | _ k ih =>
  by_cases hl : ∀ j, (j, i) ∉ P.ord m
  · exact ⟨i, mem_firstTasks.2 ⟨hi, hl⟩, .refl⟩
  · push Not at hl
    obtain ⟨j, hj⟩ := hl
    have hlt := hr j i hj
    obtain ⟨l, h1, h2⟩ := ih (rank j) (by omega) (hP.ord_lt m hm j i hj).1 rfl
    exact ⟨l, h1, h2.tail hj⟩

/-! ## The extended heap -/

/-- The heap after `decompose`. -/
def extHeap (P : Problem) (h : Heap) (m inst : Nat) (outer : List Nat) : Heap :=
  h ++ methodSteps P m h.length inst outer

theorem extHeap_old {h : Heap} {m inst outer u} (hu : u < h.length) :
    (extHeap P h m inst outer)[u]? = h[u]? := List.getElem?_append_left hu

theorem extHeap_new {h : Heap} {m inst outer i} (hi : i < (P.sub m).length) :
    (extHeap P h m inst outer)[h.length + i]? = some
      { task := (P.sub m)[i]?.getD 0
        succs := if isLast P m i then outer
          else ((P.ord m).filter (fun o => o.1 == i)).map (fun o => h.length + o.2)
        par := inst, pos := i } := by
  rw [extHeap, List.getElem?_append_right (by omega), Nat.add_sub_cancel_left, methodSteps,
    List.getElem?_map, List.getElem?_range hi]
  rfl

theorem extHeap_length {h : Heap} {m inst outer} :
    (extHeap P h m inst outer).length = h.length + (P.sub m).length := by
  simp [extHeap, methodSteps]

theorem edge_old {h : Heap} {m inst outer u v} (hu : u < h.length) :
    Edge (extHeap P h m inst outer) u v ↔ Edge h u v := by
  unfold Edge; rw [extHeap_old hu]

theorem edge_new {h : Heap} {m inst outer i v} (hi : i < (P.sub m).length) :
    Edge (extHeap P h m inst outer) (h.length + i) v ↔
      (isLast P m i = true ∧ v ∈ outer) ∨ ∃ j, (i, j) ∈ P.ord m ∧ v = h.length + j := by
  unfold Edge
  rw [extHeap_new hi]
  simp only [Option.some.injEq, exists_eq_left']
  by_cases hl : isLast P m i = true
  · simp only [hl, if_true, true_and]
    rw [isLast_iff] at hl
    constructor
    · exact .inl
    · rintro (h | ⟨j, hj, _⟩)
      · exact h
      · exact absurd hj (hl j)
  · simp only [hl, if_false, false_and, false_or, Bool.false_eq_true]
    simp only [List.mem_map, List.mem_filter, beq_iff_eq]
    constructor
    · rintro ⟨⟨a, b⟩, ⟨h1, rfl⟩, rfl⟩; exact ⟨b, h1, rfl⟩
    · rintro ⟨j, hj, rfl⟩; exact ⟨(i, j), ⟨hj, rfl⟩, rfl⟩

theorem edge_lt {h : Heap} {u v} (he : Edge h u v) : u < h.length := by
  obtain ⟨st, hst, _⟩ := he
  exact (List.getElem?_eq_some_iff.1 hst).1

theorem transGen_lt {h : Heap} {u v} (he : TransGen (Edge h) u v) : u < h.length := by
  obtain ⟨w, huw, _⟩ := TransGen.head'_iff.1 he
  exact edge_lt huw

theorem reach_lt {h : Heap} (hh : HeapOK h) {u v} (hu : u < h.length) (he : ReflTransGen (Edge h) u v) :
    v < h.length := by
  rcases ReflTransGen.cases_tail he with rfl | ⟨w, _, hw⟩
  · exact hu
  · exact hh.succ_lt _ _ hw

theorem reach_old {h : Heap} (hh : HeapOK h) {m inst outer u v} (hu : u < h.length) :
    ReflTransGen (Edge (extHeap P h m inst outer)) u v ↔ ReflTransGen (Edge h) u v := by
  constructor
  · intro hr
    induction hr with
    | refl => exact .refl
    | tail _ he ih => exact ih.tail ((edge_old (reach_lt hh hu ih)).1 he)
  · intro hr
    induction hr with
    | refl => exact .refl
    | tail _ he ih => exact ih.tail ((edge_old (edge_lt he)).2 he)

theorem trans_old {h : Heap} (hh : HeapOK h) {m inst outer u v} (hu : u < h.length) :
    TransGen (Edge (extHeap P h m inst outer)) u v ↔ TransGen (Edge h) u v := by
  rw [TransGen.head'_iff, TransGen.head'_iff]
  refine exists_congr fun w => ?_
  rw [edge_old hu]
  refine and_congr_right fun he => reach_old hh (hh.succ_lt _ _ he)

variable {h : Heap} {m inst : Nat} {ps : Step} {u : Nat}

theorem HeapOK.ext (hP : P.WF) (hh : HeapOK h) (hm : m < P.numMethods) (hps : h[u]? = some ps) :
    HeapOK (extHeap P h m inst ps.succs) := by
  obtain ⟨rank, hrank⟩ := hh.acyc
  obtain ⟨mr, hmr⟩ := hP.ord_acyclic m hm
  set M := (Finset.range (P.sub m).length).sup mr
  have hM : ∀ j < (P.sub m).length, mr j ≤ M := fun j hj =>
    Finset.le_sup (f := mr) (Finset.mem_range.2 hj)
  set R := (Finset.range h.length).sup rank
  have hR : ∀ j < h.length, rank j ≤ R := fun j hj =>
    Finset.le_sup (f := rank) (Finset.mem_range.2 hj)
  have hlen := extHeap_length (P := P) (h := h) (m := m) (inst := inst) (outer := ps.succs)
  have hsplit : ∀ v, v < (extHeap P h m inst ps.succs).length → v < h.length ∨
      ∃ i, i < (P.sub m).length ∧ v = h.length + i := by
    intro v hv
    rw [hlen] at hv
    by_cases hvb : v < h.length
    · exact .inl hvb
    · exact .inr ⟨v - h.length, by omega, by omega⟩
  refine ⟨fun x y hxy => ?_, fun x => if x < h.length then rank x else R + 1 + (M - mr (x - h.length)), ?_⟩
  · rcases hsplit x (edge_lt hxy) with hx | ⟨i, hi, rfl⟩
    · have := hh.succ_lt _ _ ((edge_old hx).1 hxy); omega
    · rcases (edge_new hi).1 hxy with ⟨_, hy⟩ | ⟨j, hj, rfl⟩
      · have := hh.succ_lt _ _ ((edge_succs hps).1 hy); omega
      · have := (hP.ord_lt m hm i j hj).2; omega
  · intro x y hxy
    rcases hsplit x (edge_lt hxy) with hx | ⟨i, hi, rfl⟩
    · have he := (edge_old hx).1 hxy
      have := hh.succ_lt _ _ he
      simp only [hx, this, if_true]; exact hrank _ _ he
    · have hni : ¬ (h.length + i < h.length) := by omega
      rcases (edge_new hi).1 hxy with ⟨_, hy⟩ | ⟨j, hj, rfl⟩
      · have := hh.succ_lt _ _ ((edge_succs hps).1 hy)
        have hr := hR y this
        simp only [hni, this, if_true, if_false]; omega
      · have hjl := (hP.ord_lt m hm i j hj).2
        have hnj : ¬ (h.length + j < h.length) := by omega
        have h1 := hmr i j hj
        have h2 := hM j hjl
        simp only [hni, hnj, if_false, Nat.add_sub_cancel_left]; omega

/-- Paths from the new steps. -/
theorem reach_new (hP : P.WF) (hh : HeapOK h) (hm : m < P.numMethods) (hps : h[u]? = some ps) {i} (hi : i < (P.sub m).length) (v : Nat) :
    ReflTransGen (Edge (extHeap P h m inst ps.succs)) (h.length + i) v ↔
      (∃ j, ReflTransGen (P.OrdRel m) i j ∧ v = h.length + j) ∨ TransGen (Edge h) u v := by
  constructor
  · intro hr
    induction hr with
    | refl => exact .inl ⟨i, .refl, rfl⟩
    | @tail b c _ he ih =>
      rcases ih with ⟨j, hij, rfl⟩ | hub
      · have hj : j < (P.sub m).length := by
          rcases ReflTransGen.cases_tail hij with rfl | ⟨k, _, hk⟩
          · exact hi
          · exact (hP.ord_lt m hm _ _ hk).2
        rcases (edge_new hj).1 he with ⟨_, hc⟩ | ⟨k, hk, rfl⟩
        · exact .inr (.single ((edge_succs hps).1 hc))
        · exact .inl ⟨k, hij.tail hk, rfl⟩
      · have hb : b < h.length := by
          obtain ⟨w, _, hw⟩ := TransGen.tail'_iff.1 hub
          exact hh.succ_lt _ _ hw
        exact .inr (hub.tail ((edge_old hb).1 he))
  · have hpos : ∀ j, ReflTransGen (P.OrdRel m) i j →
        ReflTransGen (Edge (extHeap P h m inst ps.succs)) (h.length + i) (h.length + j) := by
      intro j hij
      induction hij with
      | refl => exact .refl
      | @tail b c _ he ih =>
        exact ih.tail ((edge_new (hP.ord_lt m hm _ _ he).1).2 (.inr ⟨c, he, rfl⟩))
    rintro (⟨j, hij, rfl⟩ | huv)
    · exact hpos j hij
    · obtain ⟨l, hl, hil, hlast⟩ := exists_last hP hm hi
      obtain ⟨w, huw, hwv⟩ := TransGen.head'_iff.1 huv
      have hw := hh.succ_lt _ _ huw
      refine (hpos l hil).trans (ReflTransGen.head ((edge_new hl).2 (.inl ⟨hlast, (edge_succs hps).2 huw⟩)) ?_)
      exact (reach_old hh hw).2 hwv

theorem trans_new_new (hP : P.WF) (hh : HeapOK h) (hm : m < P.numMethods) (hps : h[u]? = some ps) {i j} (hi : i < (P.sub m).length) :
    TransGen (Edge (extHeap P h m inst ps.succs)) (h.length + i) (h.length + j) ↔
      TransGen (P.OrdRel m) i j := by
  constructor
  · intro ht
    obtain ⟨b, hib, hbj⟩ := TransGen.head'_iff.1 ht
    rcases (edge_new hi).1 hib with ⟨_, hb⟩ | ⟨k, hk, rfl⟩
    · exfalso
      have hb' := hh.succ_lt _ _ ((edge_succs hps).1 hb)
      have := reach_lt hh hb' ((reach_old hh hb').1 hbj)
      omega
    · have hk' := (hP.ord_lt m hm _ _ hk).2
      rcases (reach_new hP hh hm hps hk' _).1 hbj with ⟨j', hkj, he⟩ | hu
      · obtain rfl : j = j' := by omega
        exact TransGen.head' hk hkj
      · exfalso
        obtain ⟨w, _, hw⟩ := TransGen.tail'_iff.1 hu
        have := hh.succ_lt _ _ hw; omega
  · intro ht
    obtain ⟨k, hik, hkj⟩ := TransGen.head'_iff.1 ht
    have hk' := (hP.ord_lt m hm _ _ hik).2
    exact TransGen.head' ((edge_new hi).2 (.inr ⟨k, hik, rfl⟩))
      ((reach_new hP hh hm hps hk' _).2 (.inl ⟨j, hkj, rfl⟩))

theorem trans_new_old (hP : P.WF) (hh : HeapOK h) (hm : m < P.numMethods) (hps : h[u]? = some ps) {i w} (hi : i < (P.sub m).length) (hw : w < h.length) :
    TransGen (Edge (extHeap P h m inst ps.succs)) (h.length + i) w ↔ TransGen (Edge h) u w := by
  constructor
  · intro ht
    rcases (reach_new hP hh hm hps hi _).1 ht.to_reflTransGen with ⟨j, _, he⟩ | hu
    · omega
    · exact hu
  · intro hu
    have hr := (reach_new hP hh hm hps (inst := inst) hi w).2 (.inr hu)
    rcases reflTransGen_iff_eq_or_transGen.1 hr with he | ht
    · omega
    · exact ht

/-! ## decompose -/

theorem decomposeBase_some {g g' : Glob} {n n' : Node} {j m : Nat}
    (hd : decomposeBase P cfg g n j m = some (g', n')) :
    ∃ u ps c, n.abs[j]? = some u ∧ g.heap[u]? = some ps ∧
      (cfg.trackTasks = true → updM n.contained (distinctSubs P m) (P.head m) = some c) ∧
      g'.heap = extHeap P g.heap m g.inst ps.succs ∧ g'.inst = g.inst + 1 ∧
      n'.state = n.state ∧
      n'.prims = n.prims ++ ((firstTasks P m).map (g.heap.length + ·)).filter
        (fun v => P.prim (taskOf g'.heap v)) ∧
      n'.abs = n.abs.eraseIdx j ++ ((firstTasks P m).map (g.heap.length + ·)).filter
        (fun v => !P.prim (taskOf g'.heap v)) ∧
      (cfg.trackTasks = true → n'.contained = c) ∧
      n'.sol = ⟨ps.task, some m, g.inst, ps.par, ps.pos⟩ :: n.sol ∧
      n'.depth = n.depth + 1 ∧ n'.mixed = n.mixed + 1 ∧ n'.costs = n.costs ∧ n'.reachable = true ∧
      g'.eff = (if cfg.effLess then effIdx P g'.heap n'.state n'.prims n.prims.length else g.eff) := by
  unfold decomposeBase at hd
  simp only [Option.bind_eq_bind, Option.bind_eq_some_iff] at hd
  obtain ⟨u, hu, ps, hps, c, hc, hd⟩ := hd
  simp only [Option.pure_def, Option.some.injEq, Prod.mk.injEq] at hd
  obtain ⟨rfl, rfl⟩ := hd
  exact ⟨u, ps, c, hu, hps, fun ht => by simpa [counterM, ht] using hc, rfl, rfl, rfl, rfl, rfl,
    fun _ => rfl, rfl, rfl, rfl, rfl, rfl, rfl⟩

theorem decomposeBase_inv (hP : P.WF) {g g' : Glob} {n n' : Node} {j m : Nat}
    (hh : HeapOK g.heap) (hn : NodeOK P g.heap n) (hm : m < P.numMethods)
    (hd : decomposeBase P cfg g n j m = some (g', n')) {u} (hu : n.abs[j]? = some u) :
    HeapOK g'.heap ∧ NodeOK P g'.heap n' ∧ n'.state = n.state ∧
      Subst P (live g.heap n) (taskOf g.heap) (TransGen (Edge g.heap)) u m g.heap.length
        (live g'.heap n') (taskOf g'.heap) (TransGen (Edge g'.heap)) := by
  classical
  obtain ⟨u', ps, c, hu', hps, -, hheap, -, hstate, hpr, hab, -⟩ := decomposeBase_some hd
  obtain rfl : u = u' := by rw [hu] at hu'; exact Option.some.inj hu'
  have hh' : HeapOK g'.heap := by rw [hheap]; exact hh.ext hP hm hps
  have hub : u < g.heap.length := (List.getElem?_eq_some_iff.1 hps).1
  set new := (firstTasks P m).map (g.heap.length + ·) with hnew
  set old := n.prims ++ n.abs.eraseIdx j with hold
  have hoperm : n.firsts.Perm (u :: old) := by
    unfold Node.firsts
    exact ((eraseIdx_perm hu).append_left _).trans List.perm_middle
  have hnperm : n'.firsts.Perm (old ++ new) := by
    unfold Node.firsts
    rw [hpr, hab]
    calc _ = n.prims ++ (new.filter (fun v => P.prim (taskOf g'.heap v)) ++
            (n.abs.eraseIdx j ++ new.filter (fun v => !P.prim (taskOf g'.heap v)))) := by simp
      List.Perm _ (n.prims ++ (n.abs.eraseIdx j ++ (new.filter (fun v => P.prim (taskOf g'.heap v)) ++
            new.filter (fun v => !P.prim (taskOf g'.heap v))))) :=
          List.Perm.append_left _ (by
            rw [← List.append_assoc, ← List.append_assoc]
            exact List.perm_append_comm.append_right _)
      List.Perm _ (n.prims ++ (n.abs.eraseIdx j ++ new)) :=
          List.Perm.append_left _ (List.Perm.append_left _ (filter_append_not_perm _ _))
      _ = old ++ new := by simp [hold]
  have holdlt : ∀ x ∈ old, x < g.heap.length := fun x hx =>
    hn.lt x (hoperm.mem_iff.2 (List.mem_cons_of_mem _ hx))
  have hnewmem : ∀ x, x ∈ new ↔ ∃ i, i ∈ firstTasks P m ∧ x = g.heap.length + i := by
    intro x; simp only [hnew, List.mem_map]
    constructor
    · rintro ⟨i, hi, rfl⟩; exact ⟨i, hi, rfl⟩
    · rintro ⟨i, hi, rfl⟩; exact ⟨i, hi, rfl⟩
  have hlen' : g'.heap.length = g.heap.length + (P.sub m).length := by rw [hheap, extHeap_length]
  have hlt : ∀ x ∈ n'.firsts, x < g'.heap.length := by
    intro x hx
    rcases List.mem_append.1 (hnperm.mem_iff.1 hx) with hx | hx
    · have := holdlt x hx; omega
    · obtain ⟨i, hi, rfl⟩ := (hnewmem x).1 hx
      have := (mem_firstTasks.1 hi).1; omega
  have hndup : (u :: old).Nodup := hoperm.nodup_iff.1 hn.nodup
  have hmin : ∀ x ∈ u :: old, ∀ y ∈ u :: old, ¬ TransGen (Edge g.heap) x y := fun x hx y hy =>
    hn.min x (hoperm.mem_iff.2 hx) y (hoperm.mem_iff.2 hy)
  have htask_old : ∀ v, v < g.heap.length → taskOf g'.heap v = taskOf g.heap v := by
    intro v hv; unfold taskOf; rw [hheap, extHeap_old hv]
  have htask_new : ∀ i t, (P.sub m)[i]? = some t → taskOf g'.heap (g.heap.length + i) = t := by
    intro i t ht
    have hi := (List.getElem?_eq_some_iff.1 ht).1
    unfold taskOf; rw [hheap, extHeap_new hi]; simp [ht]
  have hlive : ∀ v, v ∈ live g'.heap n' ↔ (v ∈ live g.heap n ∧ v ≠ u) ∨
      ∃ i, i < (P.sub m).length ∧ v = g.heap.length + i := by
    intro v
    rw [mem_live hh' hlt, mem_live hh hn.lt, reachFrom_perm hnperm, reachFrom_append,
      reachFrom_perm hoperm]
    constructor
    · rintro (⟨x, hx, hxv⟩ | ⟨x, hx, hxv⟩)
      · left
        rw [hheap, reach_old hh (holdlt x hx)] at hxv
        refine ⟨⟨x, List.mem_cons_of_mem _ hx, hxv⟩, ?_⟩
        rintro rfl
        rcases reflTransGen_iff_eq_or_transGen.1 hxv with rfl | ht
        · exact (List.nodup_cons.1 hndup).1 hx
        · exact hmin x (List.mem_cons_of_mem _ hx) v List.mem_cons_self ht
      · obtain ⟨i, hi, rfl⟩ := (hnewmem x).1 hx
        rw [hheap] at hxv
        rcases (reach_new hP hh hm hps (mem_firstTasks.1 hi).1 v).1 hxv with ⟨k, hik, rfl⟩ | huv
        · right
          refine ⟨k, ?_, rfl⟩
          rcases ReflTransGen.cases_tail hik with rfl | ⟨k', _, hk⟩
          · exact (mem_firstTasks.1 hi).1
          · exact (hP.ord_lt m hm _ _ hk).2
        · left
          refine ⟨⟨u, List.mem_cons_self, huv.to_reflTransGen⟩, ?_⟩
          rintro rfl
          exact hh.irrefl huv
    · rintro (⟨⟨x, hx, hxv⟩, hvu⟩ | ⟨i, hi, rfl⟩)
      · rcases List.mem_cons.1 hx with rfl | hx
        · right
          rcases reflTransGen_iff_eq_or_transGen.1 hxv with rfl | ht
          · exact absurd rfl hvu
          · have h0 : 0 < (P.sub m).length := List.length_pos_of_ne_nil (hP.sub_ne m hm)
            obtain ⟨l, hl, _⟩ := exists_first hP hm h0
            refine ⟨g.heap.length + l, (hnewmem _).2 ⟨l, hl, rfl⟩, ?_⟩
            rw [hheap]
            exact (reach_new hP hh hm hps (mem_firstTasks.1 hl).1 v).2 (.inr ht)
        · left
          exact ⟨x, hx, by rw [hheap, reach_old hh (holdlt x hx)]; exact hxv⟩
      · right
        obtain ⟨l, hl, hli⟩ := exists_first hP hm hi
        refine ⟨g.heap.length + l, (hnewmem _).2 ⟨l, hl, rfl⟩, ?_⟩
        rw [hheap]
        exact (reach_new hP hh hm hps (mem_firstTasks.1 hl).1 _).2 (.inl ⟨i, hli, rfl⟩)
  have hlivelt : ∀ v ∈ live g.heap n, v < g.heap.length := fun v hv => by
    simp only [live, Finset.mem_filter, Finset.mem_range] at hv; exact hv.1
  have hnomin : ∀ v ∈ live g.heap n, ¬ TransGen (Edge g.heap) v u :=
    (hn.first_min hh (List.mem_append_right _ (List.mem_of_getElem? hu))).2
  have hold_new : ∀ v i, v < g.heap.length → ¬ TransGen (Edge g'.heap) v (g.heap.length + i) := by
    intro v i hv ht
    rw [hheap, trans_old hh hv] at ht
    obtain ⟨w, _, hw⟩ := TransGen.tail'_iff.1 ht
    have := hh.succ_lt _ _ hw; omega
  refine ⟨hh', ⟨?_, ?_, hlt, ?_, ?_, ?_⟩, hstate, ⟨hlive, hlivelt, ?_, htask_new, ?_, ?_, ?_, ?_⟩⟩
  · rw [hstate, hn.state_len]
  · refine hnperm.nodup_iff.2 (List.nodup_append.2 ⟨(List.nodup_cons.1 hndup).2, ?_, ?_⟩)
    · exact List.Nodup.map (fun a b h => Nat.add_left_cancel h) ((List.nodup_range).filter _)
    · rintro a ha b hb rfl
      obtain ⟨i, _, rfl⟩ := (hnewmem a).1 hb
      have := holdlt _ ha; omega
  · intro v hv
    rw [hpr] at hv
    rcases List.mem_append.1 hv with hv | hv
    · rw [htask_old v (hn.lt v (List.mem_append_left _ hv))]; exact hn.prim v hv
    · exact (List.mem_filter.1 hv).2
  · intro v hv
    rw [hab] at hv
    rcases List.mem_append.1 hv with hv | hv
    · have hv' := List.mem_of_mem_eraseIdx hv
      rw [htask_old v (hn.lt v (List.mem_append_right _ hv'))]; exact hn.abs v hv'
    · simpa using (List.mem_filter.1 hv).2
  · intro x hx y hy hxy
    rcases List.mem_append.1 (hnperm.mem_iff.1 hx) with hx | hx <;>
      rcases List.mem_append.1 (hnperm.mem_iff.1 hy) with hy | hy
    · rw [hheap, trans_old hh (holdlt x hx)] at hxy
      exact hmin x (List.mem_cons_of_mem _ hx) y (List.mem_cons_of_mem _ hy) hxy
    · obtain ⟨i, _, rfl⟩ := (hnewmem y).1 hy
      exact hold_new x i (holdlt x hx) hxy
    · obtain ⟨i, hi, rfl⟩ := (hnewmem x).1 hx
      rw [hheap, trans_new_old hP hh hm hps (mem_firstTasks.1 hi).1 (holdlt y hy)] at hxy
      exact hmin u List.mem_cons_self y (List.mem_cons_of_mem _ hy) hxy
    · obtain ⟨i, hi, rfl⟩ := (hnewmem x).1 hx
      obtain ⟨k, hk, rfl⟩ := (hnewmem y).1 hy
      rw [hheap, trans_new_new hP hh hm hps (mem_firstTasks.1 hi).1] at hxy
      obtain ⟨w, _, hw⟩ := TransGen.tail'_iff.1 hxy
      exact (mem_firstTasks.1 hk).2 _ hw
  · exact fun v hv _ => htask_old v (hlivelt v hv)
  · intro v hv w hw _ _
    rw [hheap, trans_old hh (hlivelt v hv)]
  · intro i k hi hk
    rw [hheap, trans_new_new hP hh hm hps hi]
  · intro i w hi hw _
    rw [hheap, trans_new_old hP hh hm hps hi (hlivelt w hw)]
  · intro v k hv _ hk
    constructor
    · intro ht; exact absurd ht (hold_new v k (hlivelt v hv))
    · intro ht; exact absurd ht (hnomin v hv)

theorem distinctSubs_spec (m : Nat) :
    Ok (distinctSubs P m) ∧ ∀ t, cnt (distinctSubs P m) t = (P.sub m).count t := by
  obtain ⟨h1, h2⟩ := compress_spec _ ((P.sub m).pairwise_insertionSort (· ≤ ·))
  exact ⟨h1, fun t => by rw [distinctSubs, h2, (List.perm_insertionSort _ _).count_eq]⟩

theorem sum_positions (l : List Nat) (t : Nat) (F : Nat → Nat)
    (hF : ∀ i x, l[i]? = some x → F i = x) :
    ∑ i ∈ Finset.range l.length, (if F i = t then 1 else 0) = l.count t := by
  induction l generalizing F with
  | nil => simp
  | cons a l ih =>
    rw [List.length_cons, Finset.sum_range_succ', ih (fun i => F (i + 1)) (fun i x h => hF (i + 1) x (by simpa using h)),
      List.count_cons, hF 0 a rfl]
    simp

/-- `decompose` updates the task counter correctly. -/
theorem decomposeBase_counter (hP : P.WF) {g g' : Glob} {n n' : Node} {j m : Nat}
    (hh : HeapOK g.heap) (hn : NodeOK P g.heap n) (hm : m < P.numMethods)
    (hd : decomposeBase P cfg g n j m = some (g', n')) {u} (hu : n.abs[j]? = some u)
    (hhead : P.head m = taskOf g.heap u)
    (ht : cfg.trackTasks = true) (hc : CounterOK g.heap n) : CounterOK g'.heap n' := by
  classical
  obtain ⟨-, -, -, S⟩ := decomposeBase_inv hP hh hn hm hd hu
  obtain ⟨u', ps, c, hu', hps, hupd, hheap, -, hstate, hpr, hab, hcont, -⟩ := decomposeBase_some hd
  have huf : u ∈ live g.heap n :=
    (hn.first_min hh (List.mem_append_right _ (List.mem_of_getElem? hu))).1
  have hpos : 0 < cnt n.contained (P.head m) := by
    rw [hc.2]
    exact Finset.card_pos.2 ⟨u, Finset.mem_filter.2 ⟨huf, hhead.symm⟩⟩
  obtain ⟨r, hr, hok, hcnt⟩ := updM_spec hc.1 (distinctSubs_spec (P := P) m).1 hpos
  have : c = r := by rw [hupd ht] at hr; exact Option.some.inj hr
  subst this
  refine ⟨by rw [hcont ht]; exact hok, fun t => ?_⟩
  rw [hcont ht, hcnt, hc.2, (distinctSubs_spec m).2, Finset.card_filter, Finset.card_filter]
  have hsum := sum_positions (P.sub m) t (fun i => taskOf g'.heap (g.heap.length + i)) S.lab_new
  have hs := S.sum_eq huf (fun v => if taskOf g'.heap v = t then 1 else 0)
    (fun v => if v = u then 1 + (P.sub m).count t else if taskOf g.heap v = t then 1 else 0)
    (fun v hv hvu => by simp only [hvu, if_false, S.lab_old v hv hvu]) (by simp only [if_true]; rw [hsum])
  rw [← Finset.add_sum_erase _ _ huf] at hs ⊢
  simp only [if_true] at hs
  have he : ∑ x ∈ (live g.heap n).erase u, (if x = u then 1 + (P.sub m).count t
      else if taskOf g.heap x = t then 1 else 0) =
      ∑ x ∈ (live g.heap n).erase u, (if taskOf g.heap x = t then 1 else 0) :=
    Finset.sum_congr rfl fun x hx => by simp [(Finset.mem_erase.1 hx).1]
  rw [he] at hs
  have hcond : (if t = P.head m then 1 else 0) = (if taskOf g.heap u = t then 1 else 0) := by
    rw [hhead]; by_cases hx : t = taskOf g.heap u
    · simp [hx]
    · simp [hx, Ne.symm hx]
  rw [hcond]
  omega

end Verif.Prog
