import Verif.DofRelax
import Verif.DofLayer

/-! # Feasible points of the integer program are solutions of the relaxation -/

namespace Verif.Dof

open Verif.Htn Verif.Prog Verif.TaskCounter Verif.Scc Verif.PG Verif.IntUtil Verif.Props Verif.Rc Verif.AO

/-- What is used about the sets of the planning graph. -/
structure PgSets (P : Problem) (nA nT : Nat) (s : Nat → Prop) (r : PgRes) : Prop where
  shape : Shape nA r
  task_lt : ∀ t ∈ r.tasks, t < nT
  meth : ∀ m ∈ r.methods, m < P.numMethods ∧ P.head m ∈ r.tasks ∧ ∀ t ∈ P.sub m, t ∈ r.tasks
  useful : ∀ f, f ∈ r.useful ↔ ¬ s f ∧ (f ∈ P.goal ∨ ∃ a < nA, a ∈ r.tasks ∧ f ∈ P.prec a)

theorem exists_pos {α : Type} {f : α → ℚ} : ∀ {l : List α}, 0 < (l.map f).sum → ∃ a ∈ l, 0 < f a
  | [], h => by simp at h
  | a :: l, h => by
    by_cases ha : 0 < f a
    · exact ⟨a, by simp, ha⟩
    · rw [List.map_cons, List.sum_cons] at h
      obtain ⟨b, hb, h'⟩ := exists_pos (l := l) (f := f) (by linarith)
      exact ⟨b, by simp [hb], h'⟩

theorem sum_nonneg' {α : Type} {f : α → ℚ} : ∀ {l : List α}, (∀ a ∈ l, 0 ≤ f a) → 0 ≤ (l.map f).sum
  | [], _ => by simp
  | a :: l, h => by
    rw [List.map_cons, List.sum_cons]
    have h1 := h a (by simp)
    have h2 := sum_nonneg' (l := l) (f := f) fun b hb => h b (by simp [hb])
    linarith

theorem le_sum' {α : Type} {f : α → ℚ} : ∀ {l : List α}, (∀ a ∈ l, 0 ≤ f a) → ∀ a ∈ l, f a ≤ (l.map f).sum
  | [], _, a, h => by simp at h
  | b :: l, h, a, ha => by
    rw [List.map_cons, List.sum_cons]
    have h1 := h b (by simp)
    have h2 := sum_nonneg' (l := l) (f := f) fun c hc => h c (by simp [hc])
    rcases List.mem_cons.1 ha with rfl | ha
    · linarith
    · have := le_sum' (l := l) (f := f) (fun c hc => h c (by simp [hc])) a ha
      linarith

theorem methodsOf_iff {P : Problem} {t m : Nat} : m ∈ methodsOf P t ↔ m < P.numMethods ∧ P.head m = t := by simp [methodsOf]

section

variable {P : Problem} {nA nT U : Nat} {S : Sccs} {s : Nat → Prop} {r : PgRes} {n : Node} {vars : List (Nat × Nat)} {cf : Conf} {L : Lms}
  {ints : Bool} {x : Var → ℚ}

/-! ## Reading the program -/

section Read

variable (hx : Feasible ints (prog P nA nT U S vars cf n r L) x)

include hx

theorem feas_base {d : Decl} (h : d ∈ declsBase P nA U r) : 0 ≤ x d.var ∧ x d.var ≤ d.up ∧ (ints = true → ∃ k : ℤ, x d.var = k) := by
  have h' : d ∈ (prog P nA nT U S vars cf n r L).decls := by
    simp only [prog, decls, List.mem_append]
    exact .inl (.inl h)
  exact ⟨(hx.bounds d h').1, (hx.bounds d h').2, fun e => hx.int e d h'⟩

theorem feas_uf {f : Nat} (h : f ∈ r.useful) : 0 ≤ x (.uf f) ∧ x (.uf f) ≤ 1 ∧ (ints = true → ∃ k : ℤ, x (.uf f) = k) := by
  have := feas_base hx (d := ⟨.uf f, 1⟩) (by simp [declsBase, h])
  simpa using this

theorem feas_ua {t : Nat} (h : t ∈ r.tasks) : 0 ≤ x (.ua t) ∧ (ints = true → ∃ k : ℤ, x (.ua t) = k) := by
  have := feas_base hx (d := ⟨.ua t, U⟩) (by simp [declsBase, h])
  exact ⟨this.1, this.2.2⟩

theorem feas_me {m : Nat} (h : m ∈ r.methods) : 0 ≤ x (.me m) ∧ (ints = true → ∃ k : ℤ, x (.me m) = k) := by
  have := feas_base hx (d := ⟨.me m, U⟩) (by simp [declsBase, h])
  exact ⟨this.1, this.2.2⟩

theorem feas_ef {a i : Nat} (ha : a ∈ acts nA r) (hi : i ∈ effIdxs P r a) : 0 ≤ x (.ef a i) ∧ x (.ef a i) ≤ 1 ∧ (ints = true → ∃ k : ℤ, x (.ef a i) = k) := by
  have := feas_base hx (d := ⟨.ef a i, 1⟩) (by
    simp only [declsBase, List.mem_append]
    exact .inr (List.mem_flatMap.2 ⟨a, ha, List.mem_map.2 ⟨i, hi, rfl⟩⟩))
  simpa using this

theorem feas_task {t : Nat} (h : t ∈ r.tasks) : ((meths r).map fun m => ((P.sub m).count t : ℚ) * x (.me m)).sum + tnCount n t = x (.ua t) := by
  have := hx.cons ⟨tup P r t ++ K (tnCount n t), .eq, V (.ua t)⟩ (by
    simp only [prog, List.mem_append]
    refine .inl (.inl (.inl (.inl (.inl (.inr ?_)))))
    exact List.mem_flatMap.2 ⟨t, mem_tasks'.2 h, List.mem_cons_self⟩)
  simp only [Con.Holds, eval_append, eval_V, eval_K, eval_tup] at this
  exact_mod_cast this

theorem feas_abs {t : Nat} (h : t ∈ r.tasks) (ht : nA ≤ t) : (((methodsOf P t).filter fun m => m ∈ r.methods).map fun m => x (.me m)).sum = x (.ua t) := by
  have := hx.cons ⟨sumV (((methodsOf P t).filter fun m => m ∈ r.methods).map .me), .eq, V (.ua t)⟩ (by
    simp only [prog, List.mem_append]
    refine .inl (.inl (.inl (.inl (.inl (.inr ?_)))))
    exact List.mem_flatMap.2 ⟨t, mem_tasks'.2 h, by rw [if_pos ht]; simp⟩)
  simpa only [Con.Holds, eval_sumV, eval_V, List.map_map, Function.comp_def] using this

theorem feas_pg (hpg : cf.pg = .full) {c : Con} (h : c ∈ consPg P nA r ∨ c ∈ consTime P nA r) : c.Holds x := by
  refine hx.cons c ?_
  simp only [prog, List.mem_append]
  rw [if_neg (by rw [hpg]; decide), if_pos hpg]
  rcases h with h | h
  · exact .inl (.inl (.inl (.inl (.inl (.inl (.inl h))))))
  · exact .inl (.inl (.inl (.inl (.inl (.inl (.inr h))))))

theorem feas_scc (ht : cf.tdgFull = true) {d : Nat} (hd : d ∈ S.cyclic) {c : Con} (h : c ∈ consScc P nT S n r d) : c.Holds x := by
  refine hx.cons c ?_
  simp only [prog, List.mem_append]
  rw [if_pos ht]
  exact .inl (.inl (.inl (.inl (.inr (List.mem_flatMap.2 ⟨d, hd, h⟩)))))

/-! ## Tasks with positive numbers are connected to the network -/

/-- Within a cyclic component. -/
theorem layer_conn (hS : SccsOK nT (taskAdj P) S) (hR : RcOK P nA nT) (ht : cf.tdgFull = true) {c : Nat} (hc : c ∈ S.cyclic) {root M : Nat → Prop}
    (hroot : ∀ t, tnCount n t ≠ 0 → root t) (hM : ∀ m ∈ r.methods, 0 < x (.me m) → M m) (hin : ∀ m < P.numMethods, m ∈ r.methods → 0 < x (.me m) →
      S.scc (P.head m) ≠ some c → ∀ i < (S.tasks c).length, taskAt S c i ∈ P.sub m → Conn P root M (P.head m)) :
    ∀ k, k ≤ (S.tasks c).length - 1 → ∀ i ∈ idxs S r c, 0 < x (.ly c k i) → Conn P root M (taskAt S c i) := by
  have hidx : ∀ {i}, i ∈ idxs S r c ↔ i < (S.tasks c).length ∧ taskAt S c i ∈ r.tasks := by
    intro i
    simp [idxs, taskAt]
  intro k
  induction k with
  | zero =>
    intro _ i hi h
    have := feas_scc hx ht hc (c := ⟨K (tnCount n (taskAt S c i)) ++ sumV (((incoming P nT S c i).filter fun m => m ∈ r.methods).map .me), .ge, V (.ly c 0 i)⟩) (by
      simp only [consScc, List.mem_append]
      exact .inl (.inl (List.mem_map.2 ⟨i, hi, rfl⟩)))
    simp only [Con.Holds, eval_append, eval_V, eval_K, eval_sumV, List.map_map] at this
    by_cases h0 : tnCount n (taskAt S c i) = 0
    · rw [h0] at this
      obtain ⟨m, hm, hpos⟩ := exists_pos (l := (incoming P nT S c i).filter fun m => decide (m ∈ r.methods)) (f := x ∘ Var.me) (by
        push_cast at this
        linarith)
      obtain ⟨h1, h2⟩ := List.mem_filter.1 hm
      have h2 := of_decide_eq_true h2
      obtain ⟨h3, h4, h5⟩ := (mem_incoming hS hR (hidx.1 hi).1).1 h1
      exact .step h3 (hM m h2 hpos) (hin m h3 h2 hpos h4 i (hidx.1 hi).1 h5) h5
    · exact .root (hroot _ h0)
  | succ k ih =>
    intro hk i hi h
    have hcl : ∀ {c'}, c' ∈ consLayer P S r c k → c'.Holds x := fun h => feas_scc hx ht hc (by
      simp only [consScc, List.mem_append]
      exact .inl (.inr (List.mem_flatMap.2 ⟨k, List.mem_range.2 (by omega), h⟩)))
    have := hcl (c' := ⟨V (.ly c (k + 1) i), .le, V (.ly c k i) ++
        sumV (((innerToFrom P S c i).filter fun j => taskAt S c j ∈ r.tasks).map fun j => .inn c (k + 1) j i)⟩) (by
      simp only [consLayer, List.mem_flatMap]
      exact ⟨i, hi, List.mem_cons_self⟩)
    simp only [Con.Holds, eval_append, eval_V, eval_sumV, List.map_map] at this
    by_cases h0 : 0 < x (.ly c k i)
    · exact ih (by omega) i hi h0
    · obtain ⟨j, hj, hpos⟩ := exists_pos (l := (innerToFrom P S c i).filter fun j => decide (taskAt S c j ∈ r.tasks)) (f := x ∘ fun j => Var.inn c (k + 1) j i) (by linarith)
      obtain ⟨h1, h2⟩ := List.mem_filter.1 hj
      have h2 := of_decide_eq_true h2
      have hjl : j < (S.tasks c).length := by
        simp only [innerToFrom, List.mem_filter, List.mem_range] at h1
        exact h1.1
      have hj' := hidx.2 ⟨hjl, h2⟩
      have c1 := hcl (c' := ⟨V (.inn c (k + 1) j i), .le, V (.ly c k j)⟩) (by
        simp only [consLayer, List.mem_flatMap]
        exact ⟨i, hi, List.mem_cons_of_mem _ (List.mem_flatMap.2 ⟨j, hj', by simp⟩)⟩)
      have c2 := hcl (c' := ⟨V (.inn c (k + 1) j i), .le, K 0 ++ sumV (((inner P S c j i).filter fun m => m ∈ r.methods).map .me)⟩) (by
        simp only [consLayer, List.mem_flatMap]
        exact ⟨i, hi, List.mem_cons_of_mem _ (List.mem_flatMap.2 ⟨j, hj', by simp⟩)⟩)
      simp only [Con.Holds, eval_append, eval_V, eval_K, eval_sumV, List.map_map] at c1 c2
      simp only [Function.comp_def] at hpos
      obtain ⟨m, hm, hmp⟩ := exists_pos (l := (inner P S c j i).filter fun m => decide (m ∈ r.methods)) (f := x ∘ Var.me) (by
        push_cast at c2
        linarith)
      obtain ⟨g1, g2⟩ := List.mem_filter.1 hm
      have g2 := of_decide_eq_true g2
      obtain ⟨g3, g4, g5⟩ := mem_inner.1 g1
      refine .step g3 (hM m g2 hmp) ?_ g5
      rw [g4]
      exact ih (by omega) j hj' (by linarith)

theorem feas_conn (hP : P.WF) (hS : SccsOK nT (taskAdj P) S) (hR : RcOK P nA nT) (hr : PgSets P nA nT s r) (ht : cf.tdgFull = true) {root M : Nat → Prop}
    (hroot : ∀ t, tnCount n t ≠ 0 → root t) (hM : ∀ m ∈ r.methods, 0 < x (.me m) → M m) :
    ∀ j t k, t ∈ r.tasks → S.scc t = some k → S.num ≤ k + j → 0 < x (.ua t) → Conn P root M t := by
  intro j
  induction j with
  | zero =>
    intro t k _ h1 h2
    have := hS.ok.lt _ _ h1
    omega
  | succ j ih =>
    intro t k htk h1 h2 hpos
    -- methods for tasks of other components
    have hprev : ∀ m ∈ r.methods, 0 < x (.me m) → ∀ t' ∈ P.sub m, S.scc t' = some k → S.scc (P.head m) ≠ some k → Conn P root M (P.head m) := by
      intro m hm hmp t' ht' hs' hne
      obtain ⟨q1, q2, q3⟩ := hr.meth m hm
      have hlt := hR.head_lt m q1
      obtain ⟨d, hd⟩ := Option.ne_none_iff_exists'.1 ((hS.ok.some_iff _).2 hlt)
      have hle := hS.ok.top _ _ _ _ hd hs' (Relation.ReflTransGen.single (mem_taskAdj.2 ⟨m, q1, rfl, ht'⟩))
      have hdk : d ≠ k := by
        rintro rfl
        exact hne hd
      refine ih (P.head m) d q2 hd (by omega) ?_
      have habs : nA ≤ P.head m := head_ge hP hR m q1
      rw [← feas_abs hx q2 habs]
      refine lt_of_lt_of_le hmp (le_sum' (f := fun m => x (.me m)) (fun a ha => (feas_me hx (of_decide_eq_true (List.mem_filter.1 ha).2)).1) m ?_)
      exact List.mem_filter.2 ⟨methodsOf_iff.2 ⟨q1, rfl⟩, by simpa using hm⟩
    have hlt := hr.task_lt t htk
    by_cases hcyc : k ∈ S.cyclic
    · obtain ⟨i, hi, e⟩ := exists_taskAt ((mem_tasks_scc hS).2 ⟨hlt, h1⟩)
      have hidx : i ∈ idxs S r k := by
        simp only [idxs, List.mem_filter, List.mem_range]
        have e' : (S.tasks k)[i]?.getD 0 = t := e
        exact ⟨hi, by rw [e']; simpa using htk⟩
      have c13 := feas_scc hx ht hcyc (c := ⟨V (.ua (taskAt S k i)), .le, cV 100 (.ly k ((S.tasks k).length - 1) i)⟩) (by
        simp only [consScc, List.mem_append]
        exact .inr (List.mem_map.2 ⟨i, hidx, rfl⟩))
      simp only [Con.Holds, eval_V, eval_cV] at c13
      rw [← e]
      refine layer_conn hx hS hR ht hcyc hroot hM (fun m hm hmr hmp hne i' hi' hsub => hprev m hmr hmp _ hsub (taskAt_scc hS hi') hne) _ le_rfl i hidx ?_
      rw [e] at c13
      push_cast at c13
      linarith
    · have := feas_task hx htk
      by_cases h0 : tnCount n t = 0
      · rw [h0] at this
        obtain ⟨m, hm, hmp⟩ := exists_pos (l := meths r) (f := fun m => ((P.sub m).count t : ℚ) * x (.me m)) (by
          push_cast at this
          linarith)
        have hm := mem_meths.1 hm
        obtain ⟨q1, q2, q3⟩ := hr.meth m hm
        have hc : (P.sub m).count t ≠ 0 := by
          intro h
          rw [h] at hmp
          simp at hmp
        have hsub : t ∈ P.sub m := List.count_pos_iff.1 (by omega)
        have hmp' : 0 < x (.me m) := by
          rcases (feas_me hx hm).1.lt_or_eq with h | h
          · exact h
          · rw [← h] at hmp
            simp at hmp
        refine .step q1 (hM m hm hmp') (hprev m hm hmp' t hsub h1 fun he => hcyc ?_) hsub
        have hb := (hS.ok.eq _ _ _ _ h1 he).1 rfl
        exact (hS.cyclic k).2 ⟨t, h1, Relation.TransGen.tail' hb.1 (mem_taskAdj.2 ⟨m, q1, rfl, hsub⟩)⟩
      · exact .root (hroot t h0)

/-! ## The solution -/

/-- Numbers of methods. -/
theorem feas_nat (hint : ints = true) : ∃ N : Nat → Nat, (∀ m ∈ r.methods, x (.me m) = N m) ∧ ∀ m, m ∉ r.methods → N m = 0 := by
  classical
  have : ∀ m, ∃ k : Nat, (m ∈ r.methods → x (.me m) = k) ∧ (m ∉ r.methods → k = 0) := by
    intro m
    by_cases h : m ∈ r.methods
    · obtain ⟨h0, h1⟩ := feas_me hx h
      obtain ⟨k, hk⟩ := h1 hint
      have hk0 : 0 ≤ k := by
        rw [hk] at h0
        exact_mod_cast h0
      refine ⟨k.toNat, fun _ => ?_, fun h' => absurd h h'⟩
      rw [hk]
      have : ((k.toNat : Nat) : ℤ) = k := Int.toNat_of_nonneg hk0
      exact_mod_cast this.symm
    · exact ⟨0, fun h' => absurd h' h, fun _ => rfl⟩
  choose N hN using this
  exact ⟨N, fun m h => (hN m).1 h, fun m h => (hN m).2 h⟩

omit hx in
/-- A sum over the methods of the planning graph. -/
theorem sum_meths (hr : PgSets P nA nT s r) {N : Nat → Nat} (hN : ∀ m ∈ r.methods, x (.me m) = N m) (hN0 : ∀ m, m ∉ r.methods → N m = 0) (c : Nat → Nat) :
    ((meths r).map fun m => (c m : ℚ) * x (.me m)).sum = ((∑ m ∈ Finset.range P.numMethods, N m * c m : Nat) : ℚ) := by
  rw [← sum_list_finset (l := meths r) (g := fun m => N m * c m) (by simpa [meths] using hr.shape.mnd)
    (fun m hm => Finset.mem_range.2 (hr.meth m (mem_meths.1 hm)).1) (fun m _ hm => by rw [hN0 m (fun h => hm (mem_meths.2 h)), Nat.zero_mul]), ← sum_cast]
  refine congrArg List.sum (List.map_congr_left fun m hm => ?_)
  rw [hN m (mem_meths.1 hm)]
  push_cast
  ring

theorem feas_relaxed (hint : ints = true) (hP : P.WF) (hR : RcOK P nA nT) (hS : SccsOK nT (taskAdj P) S) (hr : PgSets P nA nT s r) (hpg : cf.pg = .full)
    (ht : cf.tdgFull = true) {I : Finset Nat} {lab : Nat → Nat} (hcnt : ∀ t, tnCount n t = (I.filter fun u => lab u = t).card)
    (hlab : ∀ u ∈ I, lab u ∈ r.tasks) :
    ∃ tr π, Relaxed P I lab s tr π ∧ Fits P nA nT I s tr r ∧ (∀ t ∈ r.tasks, x (.ua t) = numT P I tr t) ∧ ∀ m ∈ r.methods, x (.me m) = numM P I tr m := by
  classical
  obtain ⟨N, hN, hN0⟩ := feas_nat hx hint
  have hsubn : ∀ t, t ∉ r.tasks → ∀ m, N m * (P.sub m).count t = 0 := by
    intro t htn m
    by_cases hm : m ∈ r.methods
    · rw [List.count_eq_zero_of_not_mem fun h => htn ((hr.meth m hm).2.2 t h), Nat.mul_zero]
    · rw [hN0 m hm, Nat.zero_mul]
  have hcount : ∀ t, (I.toList.map lab).count t = (I.filter fun u => lab u = t).card := by
    intro t
    rw [List.count_eq_countP, List.countP_map, List.countP_eq_length_filter, Finset.card_filter, ← Finset.sum_map_toList]
    rw [← List.countP_eq_length_filter]
    induction I.toList with
    | nil => rfl
    | cons u l ih =>
      rw [List.countP_cons, ih, List.map_cons, List.sum_cons]
      simp only [Function.comp_apply, beq_iff_eq]
      omega
  have hroots : ∀ t, t ∉ r.tasks → (I.filter fun u => lab u = t).card = 0 := by
    intro t htn
    rw [Finset.card_eq_zero, Finset.filter_eq_empty_iff]
    rintro u hu rfl
    exact htn (hlab u hu)
  have htask : ∀ t ∈ r.tasks, x (.ua t) = (((I.filter fun u => lab u = t).card + ∑ m ∈ Finset.range P.numMethods, N m * (P.sub m).count t : Nat) : ℚ) := by
    intro t htk
    rw [← feas_task hx htk, sum_meths hr hN hN0 fun m => (P.sub m).count t, hcnt]
    push_cast
    ring
  have hb : Balanced P (I.toList.map lab) N := by
    intro t hp
    rw [hcount]
    by_cases htk : t ∈ r.tasks
    · have hge : nA ≤ t := by
        by_contra hlt
        have := hR.prim t (hr.task_lt t htk)
        rw [hp] at this
        simp at this
        omega
      have h1 := feas_abs hx htk hge
      rw [htask t htk] at h1
      have h2 : (((methodsOf P t).filter fun m => decide (m ∈ r.methods)).map fun m => x (.me m)).sum =
          ((∑ m ∈ (Finset.range P.numMethods).filter (fun m => P.head m = t), N m : Nat) : ℚ) := by
        rw [← sum_list_finset (l := (methodsOf P t).filter fun m => decide (m ∈ r.methods)) (g := N), ← sum_cast]
        · exact congrArg List.sum (List.map_congr_left fun m hm => hN m (of_decide_eq_true (List.mem_filter.1 hm).2))
        · exact (List.nodup_range.filter _).filter _
        · intro m hm
          have := methodsOf_iff.1 (List.mem_filter.1 hm).1
          exact Finset.mem_filter.2 ⟨Finset.mem_range.2 this.1, this.2⟩
        · intro m hm hn
          refine hN0 m fun h => hn (List.mem_filter.2 ⟨methodsOf_iff.2 ?_, decide_eq_true h⟩)
          obtain ⟨h3, h4⟩ := Finset.mem_filter.1 hm
          exact ⟨Finset.mem_range.1 h3, h4⟩
      rw [h2] at h1
      exact_mod_cast h1.symm
    · rw [hroots t htk, Finset.sum_eq_zero fun m _ => hsubn t htk m]
      symm
      refine Finset.sum_eq_zero fun m hm => hN0 m fun h => htk ?_
      rw [← (Finset.mem_filter.1 hm).2]
      exact (hr.meth m h).2.1
  have hNpos : ∀ m ∈ r.methods, 0 < x (.me m) → N m ≠ 0 := by
    intro m hm h h0
    rw [hN m hm, h0] at h
    simp at h
  have hc : ∀ m < P.numMethods, N m ≠ 0 → Conn P (fun t => ∃ u ∈ I, lab u = t) (fun m => N m ≠ 0) (P.head m) := by
    intro m hm h0
    have hmr : m ∈ r.methods := by
      by_contra h
      exact h0 (hN0 m h)
    obtain ⟨q1, q2, -⟩ := hr.meth m hmr
    obtain ⟨k, hk⟩ := Option.ne_none_iff_exists'.1 ((hS.ok.some_iff _).2 (hR.head_lt m hm))
    refine feas_conn hx hP hS hR hr ht (fun t h => ?_) hNpos S.num _ k q2 hk (by omega) ?_
    · rw [hcnt] at h
      obtain ⟨u, hu⟩ := Finset.card_pos.1 (Nat.pos_of_ne_zero h)
      exact ⟨u, (Finset.mem_filter.1 hu).1, (Finset.mem_filter.1 hu).2⟩
    · rw [← feas_abs hx q2 (head_ge hP hR m hm)]
      refine lt_of_lt_of_le ?_ (le_sum' (f := fun m => x (.me m)) (fun a ha => (feas_me hx (of_decide_eq_true (List.mem_filter.1 ha).2)).1) m
        (List.mem_filter.2 ⟨methodsOf_iff.2 ⟨q1, rfl⟩, by simpa using hmr⟩))
      rw [hN m hmr]
      exact_mod_cast Nat.pos_of_ne_zero h0
  obtain ⟨tr, hv, hM⟩ := forest_net hP I lab N hb hc
  have hnm : ∀ m, numM P I tr m = N m := by
    intro m
    by_cases hm : m < P.numMethods
    · exact hM m hm
    · rw [hN0 m fun h => hm (hr.meth m h).1]
      by_contra h
      exact hm (numM_lt hv h)
  have hnt : ∀ t, numT P I tr t = (I.filter fun u => lab u = t).card + ∑ m ∈ Finset.range P.numMethods, N m * (P.sub m).count t := by
    intro t
    rw [numT_balance hv]
    simp only [hnm]
  have hua : ∀ t ∈ r.tasks, x (.ua t) = numT P I tr t := fun t h => by rw [hnt, htask t h]
  have hin : ∀ t, numT P I tr t ≠ 0 → t ∈ r.tasks := by
    intro t h
    by_contra htn
    rw [hnt, hroots t htn, Finset.sum_eq_zero fun m _ => hsubn t htn m] at h
    exact h rfl
  have hfit : Fits P nA nT I s tr r := ⟨hr.shape, hin, fun m hm => by
      by_contra h
      rw [hnm, hN0 m h] at hm
      exact hm rfl, hr.task_lt, fun m hm => (hr.meth m hm).1, fun f hf => ((hr.useful f).1 hf).1⟩
  -- the order of the actions
  let leaves := I.toList.flatMap fun u => ((tr u).leaves P).map Prod.snd
  let le : Nat → Nat → Bool := fun a b => decide (x (.ta a) ≤ x (.ta b))
  have hmem : ∀ a, a ∈ leaves.mergeSort le ↔ a < nA ∧ numT P I tr a ≠ 0 := by
    intro a
    rw [(List.mergeSort_perm leaves le).mem_iff]
    simp only [leaves, List.mem_flatMap, Finset.mem_toList, List.mem_map, Prod.exists]
    constructor
    · rintro ⟨u, hu, p, b, hl, rfl⟩
      have h1 : numT P I tr b ≠ 0 := numT_iff.2 ⟨u, hu, LeafAt.taskIn (mem_leaves.1 hl)⟩
      exact ⟨prim_lt hR hfit (leaf_reach (hv u hu) (mem_leaves.1 hl)).2 h1, h1⟩
    · rintro ⟨ha, h⟩
      have hp : P.prim a = true := by
        rw [hR.prim a (hr.task_lt a (hin a h))]
        simpa using ha
      have : 0 < numT P I tr a := Nat.pos_of_ne_zero h
      unfold numT at this
      obtain ⟨u, hu, h2⟩ := Finset.exists_ne_zero_of_sum_ne_zero (by omega : ∑ u ∈ I, (tr u).occT P a ≠ 0)
      rw [← (hv u hu).count_leaves hP hp] at h2
      have := List.count_pos_iff.1 (Nat.pos_of_ne_zero h2)
      obtain ⟨⟨p, b⟩, h3, h4⟩ := List.mem_map.1 this
      exact ⟨u, hu, p, b, h3, h4⟩
  have hsorted : (leaves.mergeSort le).Pairwise fun a b => x (.ta a) ≤ x (.ta b) := by
    refine (List.pairwise_mergeSort (fun a b c h1 h2 => ?_) (fun a b => ?_) leaves).imp fun h => of_decide_eq_true h
    · have h1 := of_decide_eq_true h1
      have h2 := of_decide_eq_true h2
      exact decide_eq_true (h1.trans h2)
    · rcases _root_.le_total (x (.ta a)) (x (.ta b)) with h | h
      · simp [le, h]
      · simp [le, h]
  -- facts that are needed are achieved
  have hach : ∀ f ∈ r.useful, 0 < x (.uf f) → ∃ b < nA, numT P I tr b ≠ 0 ∧ f ∈ P.add b ∧ x (.ta b) + 1 ≤ x (.tp f) := by
    intro f hf hpos
    have c4 := feas_pg hx hpg (c := ⟨sumV (((einv P nA f).filter fun x => x.1 ∈ r.tasks).map fun x => .ef x.1 x.2) ++ cV (-1) (.uf f), .eq, K 0⟩) (.inl (by
      simp only [consPg, List.mem_append]
      exact .inr (List.mem_map.2 ⟨f, mem_useful'.2 hf, rfl⟩)))
    simp only [Con.Holds, eval_append, eval_cV, eval_K, eval_sumV, List.map_map] at c4
    obtain ⟨⟨b, i⟩, he, hbp⟩ := exists_pos (l := (einv P nA f).filter fun x => decide (x.1 ∈ r.tasks)) (f := x ∘ fun y => Var.ef y.1 y.2) (by
      push_cast at c4
      linarith)
    obtain ⟨h1, h2⟩ := List.mem_filter.1 he
    have h2 : b ∈ r.tasks := of_decide_eq_true h2
    obtain ⟨h3, h4, h5⟩ := mem_einv.1 h1
    simp only [Function.comp_def] at hbp h3 h4 h5
    have hba : b ∈ acts nA r := hr.shape.mem_acts.2 ⟨h2, h3⟩
    have hbi : i ∈ effIdxs P r b := mem_effIdxs.2 ⟨h4, by rw [h5]; exact hf⟩
    obtain ⟨e0, e1, e2⟩ := feas_ef hx hba hbi
    have hone : x (.ef b i) = 1 := by
      obtain ⟨k, hk⟩ := e2 hint
      rw [hk] at hbp e1 ⊢
      have k1 : 0 < k := by exact_mod_cast hbp
      have k2 : k ≤ 1 := by exact_mod_cast e1
      have : k = 1 := by omega
      rw [this]
      norm_num
    have c3 := feas_pg hx hpg (c := ⟨V (.ua b) ++ cV (-1) (.ef b i), .ge, K 0⟩) (.inl (by
      simp only [consPg, List.mem_append]
      exact .inl (.inr (List.mem_flatMap.2 ⟨b, hba, List.mem_append.2 (.inr (List.mem_map.2 ⟨i, hbi, rfl⟩))⟩))))
    have c6 := feas_pg hx hpg (c := ⟨V (.ta b) ++ K 1, .le, V (.tp ((P.add b)[i]?.getD 0)) ++ K ((nA : Int) + 1) ++ cV (-((nA : Int) + 1)) (.ef b i)⟩) (.inr (by
      simp only [consTime, List.mem_append]
      exact .inr (List.mem_flatMap.2 ⟨b, hba, List.mem_map.2 ⟨i, hbi, rfl⟩⟩)))
    simp only [Con.Holds, eval_append, eval_V, eval_cV, eval_K] at c3 c6
    rw [hone] at c3 c6
    rw [h5] at c6
    push_cast at c3 c6
    refine ⟨b, h3, fun h0 => ?_, ?_, by linarith⟩
    · rw [hua b h2, h0] at c3
      push_cast at c3
      linarith
    · rw [← h5, List.getElem?_eq_getElem h4]
      exact List.getElem_mem h4
  refine ⟨tr, leaves.mergeSort le, ⟨hv, List.mergeSort_perm _ _, ?_, ?_⟩, hfit, hua, fun m hm => by rw [hnm, hN m hm]⟩
  · intro π₁ a π₂ e f hf
    obtain ⟨ha, hna⟩ := (hmem a).1 (by rw [e]; simp)
    have hat := hin a hna
    have haa : a ∈ acts nA r := hr.shape.mem_acts.2 ⟨hat, ha⟩
    by_cases hsf : s f
    · exact .inl hsf
    · have hfu : f ∈ r.useful := (hr.useful f).2 ⟨hsf, .inr ⟨a, ha, hat, hf⟩⟩
      have c2 := feas_pg hx hpg (c := ⟨cV 100 (.uf f), .ge, V (.ua a)⟩) (.inl (by
        simp only [consPg, List.mem_append]
        exact .inl (.inr (List.mem_flatMap.2 ⟨a, haa, List.mem_append.2 (.inl (List.mem_map.2 ⟨f, List.mem_filter.2 ⟨hf, by simpa using hfu⟩, rfl⟩))⟩))))
      have c5 := feas_pg hx hpg (c := ⟨V (.ta a) ++ cV (-1) (.tp f), .ge, K 0⟩) (.inr (by
        simp only [consTime, List.mem_append]
        exact .inl (List.mem_flatMap.2 ⟨a, haa, List.mem_map.2 ⟨f, List.mem_filter.2 ⟨hf, by simpa using hfu⟩, rfl⟩⟩)))
      simp only [Con.Holds, eval_append, eval_V, eval_cV, eval_K] at c2 c5
      rw [hua a hat] at c2
      have hpos : (0 : ℚ) < (numT P I tr a : ℚ) := by exact_mod_cast Nat.pos_of_ne_zero hna
      push_cast at c2 c5
      obtain ⟨b, hb, hnb, hadd, htb⟩ := hach f hfu (by linarith)
      have hbm := (hmem b).2 ⟨hb, hnb⟩
      rw [e] at hbm hsorted
      rcases List.mem_append.1 hbm with h | h
      · exact .inr ⟨b, h, hadd⟩
      · exfalso
        rcases List.mem_cons.1 h with h | h
        · subst h
          linarith
        · have := (List.pairwise_cons.1 (List.pairwise_append.1 hsorted).2.1).1 b h
          linarith
  · intro f hf
    by_cases hsf : s f
    · exact .inl hsf
    · have hfu : f ∈ r.useful := (hr.useful f).2 ⟨hsf, .inl hf⟩
      have c1 := feas_pg hx hpg (c := ⟨V (.uf f), .eq, K 1⟩) (.inl (by
        simp only [consPg, List.mem_append]
        exact .inl (.inl (List.mem_map.2 ⟨f, List.mem_filter.2 ⟨hf, by simpa using hfu⟩, rfl⟩))))
      simp only [Con.Holds, eval_V, eval_K] at c1
      push_cast at c1
      obtain ⟨b, hb, hnb, hadd, -⟩ := hach f hfu (by linarith)
      exact .inr ⟨b, (hmem b).2 ⟨hb, hnb⟩, hadd⟩

end Read

end

end Verif.Dof
