import Verif.DofCons

/-! # The layers of the cyclic components -/

namespace Verif.Dof

open Verif.Htn Verif.Prog Verif.TaskCounter Verif.Scc Verif.PG Verif.IntUtil Verif.Props Verif.Rc Verif.AO

/-- An increasing sequence of subsets of an `n`-element set that does not change any more once two neighbours agree (or the first set is
empty) reaches its end after `n - 1` steps. -/
theorem stable_chain {A : Nat → Finset Nat} {n : Nat} (hsub : ∀ k, A k ⊆ A (k + 1)) (hr : ∀ k, A k ⊆ Finset.range n)
    (hs : ∀ k, A k = A (k + 1) → A (k + 1) = A (k + 2)) (h0 : A 0 = ∅ → A 1 = ∅) (k : Nat) : A k ⊆ A (n - 1) := by
  have hmono : ∀ j d, A j ⊆ A (j + d) := by
    intro j d
    induction d with
    | zero => exact Finset.Subset.refl _
    | succ d ih => exact ih.trans (hsub _)
  have hstab : ∀ j, A j = A (j + 1) → ∀ d, A (j + d) = A j := by
    intro j hj d
    have : A (j + d) = A j ∧ A (j + d) = A (j + d + 1) := by
      induction d with
      | zero => exact ⟨rfl, hj⟩
      | succ d ih => exact ⟨ih.2.symm.trans ih.1, hs _ ih.2⟩
    exact this.1
  have hgrow : ∀ k, (∃ j ≤ k, A j = A (j + 1)) ∨ k + 1 ≤ (A k).card := by
    intro k
    induction k with
    | zero =>
      by_cases h : A 0 = ∅
      · exact .inl ⟨0, le_rfl, by rw [h, h0 h]⟩
      · exact .inr (Finset.card_pos.2 (Finset.nonempty_iff_ne_empty.2 h))
    | succ k ih =>
      rcases ih with ⟨j, hj, e⟩ | h
      · exact .inl ⟨j, by omega, e⟩
      · by_cases e : A k = A (k + 1)
        · exact .inl ⟨k, by omega, e⟩
        · exact .inr (Nat.lt_of_le_of_lt h (Finset.card_lt_card (Finset.ssubset_iff_subset_ne.2 ⟨hsub k, e⟩)))
  rcases hgrow (n - 1) with ⟨j, hj, e⟩ | h
  · have h1 : A (n - 1) = A j := by
      have := hstab j e (n - 1 - j)
      rwa [show j + (n - 1 - j) = n - 1 by omega] at this
    rw [h1]
    by_cases hk : j ≤ k
    · have := hstab j e (k - j)
      rw [show j + (k - j) = k by omega] at this
      rw [this]
    · have := hmono k (j - k)
      rwa [show k + (j - k) = j by omega] at this
  · have : A (n - 1) = Finset.range n := Finset.eq_of_subset_of_card_le (hr _) (by rw [Finset.card_range]; omega)
    rw [this]
    exact hr k

section

variable {P : Problem} {nA nT U : Nat} {S : Sccs} {I : Finset Nat} {lab : Nat → Nat} {s : Nat → Prop} {tr : Nat → Tree} {π : List Nat} {r : PgRes}
  {n : Node} {root M : Nat → Prop} {c : Nat}

open Classical in
theorem lay_stable {i k : Nat} (hi : i < (S.tasks c).length) (h : lay P nT S root M c k i) : lay P nT S root M c ((S.tasks c).length - 1) i := by
  have key := stable_chain (A := fun k => (Finset.range (S.tasks c).length).filter fun i => lay P nT S root M c k i) (n := (S.tasks c).length)
    ?_ ?_ ?_ ?_ k
  · exact (Finset.mem_filter.1 (key (Finset.mem_filter.2 ⟨Finset.mem_range.2 hi, h⟩))).2
  · intro k i hi
    obtain ⟨h1, h2⟩ := Finset.mem_filter.1 hi
    exact Finset.mem_filter.2 ⟨h1, .inl h2⟩
  · exact fun k => Finset.filter_subset _ _
  · intro k e
    refine Finset.filter_congr fun i hi => ?_
    refine ⟨.inl, ?_⟩
    rintro (h | ⟨j, hj, h, hm⟩)
    · exact h
    · have : j ∈ (Finset.range (S.tasks c).length).filter fun i => lay P nT S root M c (k + 1) i := Finset.mem_filter.2 ⟨Finset.mem_range.2 hj, h⟩
      have e' : (Finset.range (S.tasks c).length).filter (fun i => lay P nT S root M c k i) =
        (Finset.range (S.tasks c).length).filter fun i => lay P nT S root M c (k + 1) i := e
      rw [← e'] at this
      exact .inr ⟨j, hj, (Finset.mem_filter.1 this).2, hm⟩
  · intro e
    have e' : (Finset.range (S.tasks c).length).filter (fun i => lay P nT S root M c 0 i) = ∅ := e
    rw [Finset.filter_eq_empty_iff] at e'
    show (Finset.range (S.tasks c).length).filter (fun i => lay P nT S root M c 1 i) = ∅
    rw [Finset.filter_eq_empty_iff]
    rintro i hi (h | ⟨j, hj, h, -⟩)
    · exact e' hi h
    · exact e' (Finset.mem_range.2 hj) h

theorem taskAt_mem {i : Nat} (hi : i < (S.tasks c).length) : taskAt S c i ∈ S.tasks c := by
  unfold taskAt
  rw [List.getElem?_eq_getElem hi]
  exact List.getElem_mem hi

theorem mem_tasks_scc (hS : SccsOK nT (taskAdj P) S) {t d : Nat} : t ∈ S.tasks d ↔ t < nT ∧ S.scc t = some d := by
  rw [hS.tasks]
  simp

theorem taskAt_scc (hS : SccsOK nT (taskAdj P) S) {i : Nat} (hi : i < (S.tasks c).length) : S.scc (taskAt S c i) = some c :=
  ((mem_tasks_scc hS).1 (taskAt_mem hi)).2

theorem exists_taskAt {t : Nat} (h : t ∈ S.tasks c) : ∃ i < (S.tasks c).length, taskAt S c i = t := by
  obtain ⟨i, hi, e⟩ := List.mem_iff_getElem.1 h
  exact ⟨i, hi, by rw [taskAt, List.getElem?_eq_getElem hi, e]; rfl⟩

theorem mem_incoming (hS : SccsOK nT (taskAdj P) S) (hR : RcOK P nA nT) {i m : Nat} (hi : i < (S.tasks c).length) :
    m ∈ incoming P nT S c i ↔ m < P.numMethods ∧ S.scc (P.head m) ≠ some c ∧ taskAt S c i ∈ P.sub m := by
  simp only [incoming, List.mem_filter, List.mem_range, List.any_eq_true, Bool.and_eq_true, List.contains_iff_mem, sccPred, bne_iff_ne,
    ne_eq, beq_iff_eq]
  constructor
  · rintro ⟨h1, d, ⟨-, h2, -⟩, h3, h4⟩
    refine ⟨h1, ?_, h4⟩
    rw [((mem_tasks_scc hS).1 h3).2]
    simpa using h2
  · rintro ⟨h1, h2, h3⟩
    have hlt := hR.head_lt m h1
    obtain ⟨d, hd⟩ := Option.ne_none_iff_exists'.1 ((hS.ok.some_iff _).2 hlt)
    refine ⟨h1, d, ⟨hS.ok.lt _ _ hd, ?_, P.head m, hlt, hd, taskAt S c i, mem_taskAdj.2 ⟨m, h1, rfl, h3⟩, taskAt_scc hS hi⟩,
      (mem_tasks_scc hS).2 ⟨hlt, hd⟩, h3⟩
    rintro rfl
    exact h2 hd

theorem mem_inner {i j m : Nat} : m ∈ inner P S c i j ↔ m < P.numMethods ∧ P.head m = taskAt S c i ∧ taskAt S c j ∈ P.sub m := by
  simp [inner]

/-- What is connected to the network is in some layer. -/
theorem conn_lay (hS : SccsOK nT (taskAdj P) S) (hR : RcOK P nA nT) {x : Nat} (h : Conn P root M x) :
    ∀ c i, i < (S.tasks c).length → taskAt S c i = x → ∃ k, lay P nT S root M c k i := by
  induction h with
  | root hx => rintro c i - rfl; exact ⟨0, .inl hx⟩
  | @step m t hlt hm _ hx ih =>
    rintro c i hi rfl
    by_cases hd : S.scc (P.head m) = some c
    · obtain ⟨j, hj, e⟩ := exists_taskAt ((mem_tasks_scc hS).2 ⟨hR.head_lt m hlt, hd⟩)
      obtain ⟨k, hk⟩ := ih c j hj e
      exact ⟨k + 1, .inr ⟨j, hj, hk, m, mem_inner.2 ⟨hlt, e.symm, hx⟩, hm⟩⟩
    · exact ⟨0, .inr ⟨m, (mem_incoming hS hR hi).2 ⟨hlt, hd, hx⟩, hm⟩⟩

theorem lay_task (hv : ∀ u ∈ I, Valid P (lab u) (tr u)) {k : Nat} :
    ∀ {i}, lay P nT S (fun t => ∃ u ∈ I, lab u = t) (fun m => numM P I tr m ≠ 0) c k i → numT P I tr (taskAt S c i) ≠ 0 := by
  induction k with
  | zero =>
    rintro i (⟨u, hu, e⟩ | ⟨m, hm, h⟩)
    · rw [← e]
      exact numT_root hv hu
    · simp only [incoming, List.mem_filter, List.any_eq_true, Bool.and_eq_true, List.contains_iff_mem] at hm
      obtain ⟨-, d, -, -, h4⟩ := hm
      exact numT_sub hv h h4
  | succ k ih =>
    rintro i (h | ⟨j, -, -, m, hm, h⟩)
    · exact ih h
    · exact numT_sub hv h (mem_inner.1 hm).2.2

theorem sum_me {l : List Nat} (hf : Fits P nA nT I s tr r) {m : Nat} (hm : m ∈ l) (h : numM P I tr m ≠ 0) :
    1 ≤ ((l.filter fun m => decide (m ∈ r.methods)).map (asg P nA nT S I lab tr π ∘ Var.me)).sum := by
  refine le_trans ?_ (le_sum_map (a := m) (List.mem_filter.2 ⟨hm, decide_eq_true (hf.meth m h)⟩))
  simp only [Function.comp_def, asg]
  omega

/-- C9 to C13. -/
theorem consScc_holds (hS : SccsOK nT (taskAdj P) S) (hR : RcOK P nA nT) (hv : ∀ u ∈ I, Valid P (lab u) (tr u)) (hf : Fits P nA nT I s tr r)
    (hn : ∀ t, tnCount n t = (I.filter fun u => lab u = t).card) (h100 : ∀ t, numT P I tr t ≤ 100) :
    ∀ x ∈ consScc P nT S n r c, x.Holds (pt P nA nT S I lab tr π) := by
  intro x hx
  simp only [consScc, consLayer, List.mem_append, List.mem_map, List.mem_flatMap, List.mem_range, List.mem_cons, List.not_mem_nil, or_false] at hx
  rcases hx with (⟨i, -, rfl⟩ | ⟨k, -, i, -, rfl | ⟨j, -, rfl | rfl⟩⟩) | ⟨i, hi, rfl⟩
  · simp only [Con.Holds, eval_V, eval_append, eval_K, eval_sumV_pt, List.map_map]
    have : asg P nA nT S I lab tr π (.ly c 0 i) ≤ tnCount n (taskAt S c i) +
        (((incoming P nT S c i).filter fun m => decide (m ∈ r.methods)).map (asg P nA nT S I lab tr π ∘ Var.me)).sum := by
      rw [hn]
      by_cases h : lay P nT S (fun t => ∃ u ∈ I, lab u = t) (fun m => numM P I tr m ≠ 0) c 0 i
      · have h1 : asg P nA nT S I lab tr π (.ly c 0 i) = 1 := by simp only [asg]; rw [if_pos h]
        rw [h1]
        rcases h with ⟨u, hu, e⟩ | ⟨m, hm, h⟩
        · have : 0 < (I.filter fun v => lab v = taskAt S c i).card := Finset.card_pos.2 ⟨u, Finset.mem_filter.2 ⟨hu, e⟩⟩
          omega
        · have := sum_me (S := S) (lab := lab) (π := π) hf hm h
          omega
      · have h1 : asg P nA nT S I lab tr π (.ly c 0 i) = 0 := by simp only [asg]; rw [if_neg h]
        rw [h1]
        exact Nat.zero_le _
    have := (Nat.cast_le (α := ℚ)).2 this
    rw [Nat.cast_add] at this
    rw [Int.cast_natCast]
    exact this
  · simp only [Con.Holds, eval_V, eval_append, eval_K, eval_sumV_pt, List.map_map]
    have : asg P nA nT S I lab tr π (.ly c (k + 1) i) ≤ asg P nA nT S I lab tr π (.ly c k i) +
        (((innerToFrom P S c i).filter fun j => decide (taskAt S c j ∈ r.tasks)).map
          (asg P nA nT S I lab tr π ∘ fun j => Var.inn c (k + 1) j i)).sum := by
      simp only [asg]
      split_ifs with h1 h2 h2
      · omega
      · rcases h1 with h1 | ⟨j, hj, h1, m, hm, h3⟩
        · exact absurd h1 h2
        · rw [Nat.zero_add]
          refine le_trans ?_ (le_sum_map (a := j) ?_)
          · simp only [Function.comp_def, asg]
            rw [if_pos ⟨h1, m, hm, h3⟩]
          · refine List.mem_filter.2 ⟨?_, decide_eq_true (hf.task _ (lay_task hv h1))⟩
            simp only [innerToFrom, List.mem_filter, List.mem_range, Bool.not_eq_true', List.isEmpty_eq_false_iff]
            exact ⟨hj, List.ne_nil_of_mem hm⟩
      · omega
      · omega
    have := (Nat.cast_le (α := ℚ)).2 this
    rw [Nat.cast_add] at this
    exact this
  · simp only [Con.Holds, eval_V, pt]
    refine (Nat.cast_le (α := ℚ)).2 ?_
    simp only [asg]
    split_ifs with h1 h2 h2
    · exact le_rfl
    · exact absurd h1.1 h2
    · omega
    · omega
  · simp only [Con.Holds, eval_V, eval_append, eval_K, eval_sumV_pt, List.map_map, Int.cast_zero, zero_add]
    refine (Nat.cast_le (α := ℚ)).2 ?_
    show asg P nA nT S I lab tr π (.inn c (k + 1) j i) ≤ _
    simp only [asg]
    split_ifs with h1
    · obtain ⟨-, m, hm, h⟩ := h1
      exact sum_me (S := S) (lab := lab) (π := π) hf hm h
    · exact Nat.zero_le _
  · simp only [Con.Holds, eval_V, eval_cV, pt]
    have hi' : i < (S.tasks c).length := by
      simp only [idxs, List.mem_filter, List.mem_range] at hi
      exact hi.1
    have : asg P nA nT S I lab tr π (.ua (taskAt S c i)) ≤ 100 * asg P nA nT S I lab tr π (.ly c ((S.tasks c).length - 1) i) := by
      by_cases h0 : numT P I tr (taskAt S c i) = 0
      · simp [asg, h0]
      · obtain ⟨k, hk⟩ := conn_lay hS hR (numT_conn hv h0) c i hi' rfl
        have := lay_stable hi' hk
        have h1 : asg P nA nT S I lab tr π (.ly c ((S.tasks c).length - 1) i) = 1 := by
          simp only [asg]
          rw [if_pos this]
        rw [h1]
        exact h100 _
    exact_mod_cast this

end

end Verif.Dof
