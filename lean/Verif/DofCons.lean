import Verif.DofFeas

/-! # The constraints hold for solutions of the delete- and order-free relaxation -/

namespace Verif.Dof

open Verif.Htn Verif.Prog Verif.TaskCounter Verif.Scc Verif.PG Verif.IntUtil Verif.Props Verif.Rc Verif.AO

/-- What is used by the solution is in the sets of the planning graph, and facts of the state are not in the set of useful facts. -/
structure Fits (P : Problem) (nA nT : Nat) (I : Finset Nat) (s : Nat → Prop) (tr : Nat → Tree) (r : PgRes) : Prop where
  shape : Shape nA r
  task : ∀ t, numT P I tr t ≠ 0 → t ∈ r.tasks
  meth : ∀ m, numM P I tr m ≠ 0 → m ∈ r.methods
  task_lt : ∀ t ∈ r.tasks, t < nT
  meth_lt : ∀ m ∈ r.methods, m < P.numMethods
  useful : ∀ f ∈ r.useful, ¬ s f

theorem sum_cast {α : Type} (l : List α) (g : α → Nat) : (l.map fun a => ((g a : Nat) : ℚ)).sum = (((l.map g).sum : Nat) : ℚ) := by
  induction l with
  | nil => simp
  | cons a l ih => simp [ih]

theorem sum_list_finset {l : List Nat} (hl : l.Nodup) {A : Finset Nat} (hA : ∀ x ∈ l, x ∈ A) {g : Nat → Nat} (h0 : ∀ x ∈ A, x ∉ l → g x = 0) :
    (l.map g).sum = ∑ x ∈ A, g x := by
  rw [← List.sum_toFinset g hl]
  refine Finset.sum_subset (fun x hx => hA x (List.mem_toFinset.1 hx)) fun x hx hn => h0 x hx fun h => hn (List.mem_toFinset.2 h)

theorem le_sum_map {α : Type} {l : List α} {g : α → Nat} {a : α} (h : a ∈ l) : g a ≤ (l.map g).sum :=
  List.single_le_sum (fun _ _ => Nat.zero_le _) _ (List.mem_map_of_mem h)

theorem sum_indicator {α : Type} [DecidableEq α] {l : List α} (hl : l.Nodup) {a : α} (ha : a ∈ l) {g : α → Nat} (h1 : g a = 1) (h0 : ∀ x ∈ l, x ≠ a → g x = 0) :
    (l.map g).sum = 1 := by
  rw [← List.sum_toFinset g hl, Finset.sum_eq_single a (fun b hb hne => h0 b (List.mem_toFinset.1 hb) hne) fun h => absurd (List.mem_toFinset.2 ha) h, h1]

section

variable {P : Problem} {nA nT U : Nat} {S : Sccs} {I : Finset Nat} {lab : Nat → Nat} {s : Nat → Prop} {tr : Nat → Tree} {π : List Nat} {r : PgRes}
  {n : Node}

/-- The point in the rationals. -/
noncomputable def pt (P : Problem) (nA nT : Nat) (S : Sccs) (I : Finset Nat) (lab : Nat → Nat) (tr : Nat → Tree) (π : List Nat) (v : Var) : ℚ :=
  (asg P nA nT S I lab tr π v : Nat)

theorem eval_sumV_pt (l : List Var) : eval (pt P nA nT S I lab tr π) (sumV l) = (((l.map (asg P nA nT S I lab tr π)).sum : Nat) : ℚ) := by
  rw [eval_sumV, ← sum_cast]
  rfl

theorem prim_lt (hR : RcOK P nA nT) (hf : Fits P nA nT I s tr r) {a : Nat} (hp : P.prim a = true) (h : numT P I tr a ≠ 0) : a < nA := by
  have := hR.prim a (hf.task_lt a (hf.task a h))
  rw [hp] at this
  exact of_decide_eq_true this.symm

theorem Relaxed.mem_iff (hP : P.WF) (h : Relaxed P I lab s tr π) {a : Nat} (ha : P.prim a = true) : a ∈ π ↔ numT P I tr a ≠ 0 := by
  rw [← h.count hP ha, ← List.count_pos_iff]
  omega

theorem Relaxed.lt (hP : P.WF) (hR : RcOK P nA nT) (h : Relaxed P I lab s tr π) (hf : Fits P nA nT I s tr r) {a : Nat} (ha : a ∈ π) : a < nA :=
  prim_lt hR hf (h.prim ha) ((h.mem_iff hP (h.prim ha)).1 ha)

theorem act_prim (hR : RcOK P nA nT) (hf : Fits P nA nT I s tr r) {a : Nat} (ha : a ∈ acts nA r) : P.prim a = true := by
  obtain ⟨h1, h2⟩ := hf.shape.mem_acts.1 ha
  rw [hR.prim a (hf.task_lt a h1)]
  exact decide_eq_true h2

theorem mem_einv {f : Nat} {e : Nat × Nat} : e ∈ einv P nA f ↔ e.1 < nA ∧ e.2 < (P.add e.1).length ∧ (P.add e.1)[e.2]?.getD 0 = f := by
  obtain ⟨a, i⟩ := e
  simp only [einv, List.mem_reverse, List.mem_flatMap, List.mem_range, List.mem_map, List.mem_filter, beq_iff_eq, Prod.mk.injEq]
  constructor
  · rintro ⟨a, h1, i, ⟨h2, h3⟩, rfl, rfl⟩
    exact ⟨h1, h2, h3⟩
  · rintro ⟨h1, h2, h3⟩
    exact ⟨a, h1, i, ⟨h2, h3⟩, rfl, rfl⟩

theorem einv_nodup (f : Nat) : (einv P nA f).Nodup := by
  unfold einv
  rw [List.nodup_reverse, List.nodup_flatMap]
  refine ⟨fun a _ => ?_, ?_⟩
  · exact (List.nodup_range.filter _).map fun i j h => by simpa using h
  · refine List.Pairwise.imp ?_ List.nodup_range
    intro a b hab
    rw [Function.onFun, List.disjoint_left]
    intro e h1 h2
    simp only [List.mem_map] at h1 h2
    obtain ⟨i, -, rfl⟩ := h1
    obtain ⟨j, -, h⟩ := h2
    simp only [Prod.mk.injEq] at h
    exact hab h.1.symm

theorem mem_effIdxs {a i : Nat} : i ∈ effIdxs P r a ↔ i < (P.add a).length ∧ (P.add a)[i]?.getD 0 ∈ r.useful := by
  simp [effIdxs]

/-- C1 to C4. -/
theorem consPg_holds (hP : P.WF) (hR : RcOK P nA nT) (h : Relaxed P I lab s tr π) (hf : Fits P nA nT I s tr r)
    (h100 : ∀ a < nA, numT P I tr a ≤ 100) : ∀ c ∈ consPg P nA r, c.Holds (pt P nA nT S I lab tr π) := by
  intro c hc
  simp only [consPg, List.mem_append, List.mem_map, List.mem_flatMap, List.mem_filter, decide_eq_true_eq] at hc
  rcases hc with (⟨f, ⟨h1, h2⟩, rfl⟩ | ⟨a, ha, ⟨f, ⟨h1, h2⟩, rfl⟩ | ⟨i, hi, rfl⟩⟩) | ⟨f, h2, rfl⟩
  · have : (achiever P π f).isSome := achiever_isSome.2 ((h.goal f h1).resolve_left (hf.useful f h2))
    simp [Con.Holds, pt, asg, this]
  · simp only [Con.Holds, eval_V, eval_cV, pt, asg]
    have hp := act_prim hR hf ha
    by_cases h0 : numT P I tr a = 0
    · rw [h0]
      positivity
    · have haπ := (h.mem_iff hP hp).2 h0
      obtain ⟨b, hb, -⟩ := h.achieved haπ h1 (hf.useful f h2)
      have := h100 a (hf.shape.mem_acts.1 ha).2
      rw [hb]
      simp only [Option.isSome_some, if_true]
      norm_num
      exact_mod_cast this
  · simp only [Con.Holds, eval_V, eval_cV, eval_append, eval_K, pt, asg]
    have hp := act_prim hR hf ha
    split_ifs with h0
    · have haπ := (h.mem_iff hP hp).1 (achiever_some h0.1).1
      have : (1 : ℚ) ≤ (numT P I tr a : ℚ) := by exact_mod_cast Nat.one_le_iff_ne_zero.2 haπ
      push_cast
      linarith
    · simp
  · simp only [Con.Holds, eval_cV, eval_append, eval_K, eval_sumV_pt, List.map_map]
    have key : ((((einv P nA f).filter fun x => decide (x.1 ∈ r.tasks))).map (asg P nA nT S I lab tr π ∘ fun x => Var.ef x.1 x.2)).sum =
        asg P nA nT S I lab tr π (.uf f) := by
      cases e : achiever P π f with
      | none =>
        rw [List.sum_eq_zero]
        · simp [asg, e]
        · intro v hv
          simp only [List.mem_map, List.mem_filter, mem_einv, Function.comp_def] at hv
          obtain ⟨x, ⟨⟨-, -, h3⟩, -⟩, rfl⟩ := hv
          simp [asg, h3, e]
      | some a =>
        obtain ⟨h3, h4⟩ := achiever_some e
        have hlt := h.lt hP hR hf h3
        have hT := hf.task a ((h.mem_iff hP (h.prim h3)).1 h3)
        have hi : (P.add a).idxOf f < (P.add a).length := List.idxOf_lt_length_iff.2 h4
        have hg : (P.add a)[(P.add a).idxOf f]?.getD 0 = f := by rw [List.getElem?_eq_getElem hi, List.getElem_idxOf hi]; rfl
        rw [sum_indicator ((einv_nodup f).filter _) (a := (a, (P.add a).idxOf f))]
        · simp [asg, e]
        · simp only [List.mem_filter, mem_einv, decide_eq_true_eq]
          exact ⟨⟨hlt, hi, hg⟩, hT⟩
        · simp only [Function.comp_def, asg]
          rw [hg, if_pos ⟨e, rfl⟩]
        · rintro ⟨b, i⟩ hx hne
          simp only [List.mem_filter, mem_einv, decide_eq_true_eq] at hx
          simp only [Function.comp_def, asg]
          rw [hx.1.2.2, if_neg]
          rintro ⟨h5, h6⟩
          rw [e] at h5
          cases h5
          rw [h6] at hne
          exact hne rfl
    rw [key]
    simp [pt]

/-- C5, C6. -/
theorem consTime_holds (hP : P.WF) (hR : RcOK P nA nT) (h : Relaxed P I lab s tr π) (hf : Fits P nA nT I s tr r) :
    ∀ c ∈ consTime P nA r, c.Holds (pt P nA nT S I lab tr π) := by
  have hπ : ∀ a ∈ π, a < nA := fun a ha => h.lt hP hR hf ha
  have htp : ∀ f, asg P nA nT S I lab tr π (.tp f) ≤ nA := by
    intro f
    simp only [asg]
    cases e : achiever P π f with
    | none => simp
    | some b => exact rank_bound hπ (achiever_some e).1
  have hta : ∀ a, asg P nA nT S I lab tr π (.ta a) ≤ nA := by
    intro a
    simp only [asg]
    split
    · rename_i ha; exact (rank_bound hπ ha).le
    · exact le_rfl
  intro c hc
  simp only [consTime, List.mem_append, List.mem_map, List.mem_flatMap, List.mem_filter, decide_eq_true_eq] at hc
  rcases hc with ⟨a, ha, f, ⟨h1, h2⟩, rfl⟩ | ⟨a, ha, i, hi, rfl⟩
  · simp only [Con.Holds, eval_V, eval_cV, eval_append, eval_K, pt]
    have : asg P nA nT S I lab tr π (.tp f) ≤ asg P nA nT S I lab tr π (.ta a) := by
      by_cases haπ : a ∈ π
      · obtain ⟨b, hb, hlt⟩ := h.achieved haπ h1 (hf.useful f h2)
        simp only [asg, hb, haπ, if_true]
        exact rank_lt (achiever_some hb).1 hlt
      · refine (htp f).trans ?_
        simp [asg, haπ]
    have : (asg P nA nT S I lab tr π (.tp f) : ℚ) ≤ (asg P nA nT S I lab tr π (.ta a) : ℚ) := by exact_mod_cast this
    push_cast
    linarith
  · simp only [Con.Holds, eval_V, eval_cV, eval_append, eval_K, pt]
    by_cases h0 : achiever P π ((P.add a)[i]?.getD 0) = some a ∧ (P.add a).idxOf ((P.add a)[i]?.getD 0) = i
    · have e1 : asg P nA nT S I lab tr π (.ef a i) = 1 := by simp [asg, h0]
      have e2 : asg P nA nT S I lab tr π (.tp ((P.add a)[i]?.getD 0)) = rank π a + 1 := by simp [asg, h0.1]
      have e3 : asg P nA nT S I lab tr π (.ta a) = rank π a := by simp [asg, (achiever_some h0.1).1]
      rw [e1, e2, e3]
      push_cast
      linarith
    · have e1 : asg P nA nT S I lab tr π (.ef a i) = 0 := by simp only [asg]; rw [if_neg h0]
      rw [e1]
      have : (asg P nA nT S I lab tr π (.ta a) : ℚ) ≤ nA := by exact_mod_cast hta a
      have h' : (0 : ℚ) ≤ (asg P nA nT S I lab tr π (.tp ((P.add a)[i]?.getD 0)) : ℚ) := Nat.cast_nonneg _
      push_cast
      linarith

theorem sum_flatMap_const (l : List Nat) (g : Nat → Nat) (t : Nat) :
    (l.map fun m => ((P.sub m).count t : ℚ) * (g m : ℚ)).sum = (((l.map fun m => g m * (P.sub m).count t).sum : Nat) : ℚ) := by
  rw [← sum_cast]
  exact congrArg List.sum (List.map_congr_left fun m _ => by push_cast; ring)

theorem eval_tup (x : Var → ℚ) (t : Nat) : eval x (tup P r t) = ((meths r).map fun m => ((P.sub m).count t : ℚ) * x (.me m)).sum := by
  unfold tup
  induction meths r with
  | nil => rfl
  | cons m l ih =>
    rw [List.flatMap_cons, eval_append, ih, List.map_cons, List.sum_cons]
    congr 1
    rw [eval_map x ((P.sub m).filter (· == t)) (fun _ => 1) fun _ => Var.me m]
    simp [List.sum_replicate, List.count_eq_length_filter]

/-- C7, C8. -/
theorem consTasks_holds (hR : RcOK P nA nT) (hv : ∀ u ∈ I, Valid P (lab u) (tr u)) (hf : Fits P nA nT I s tr r)
    (hn : ∀ t, tnCount n t = (I.filter fun u => lab u = t).card) : ∀ c ∈ consTasks P nA n r, c.Holds (pt P nA nT S I lab tr π) := by
  have hmnd : (meths r).Nodup := by simpa [meths] using hf.shape.mnd
  intro c hc
  simp only [consTasks, List.mem_flatMap, List.mem_cons, mem_tasks'] at hc
  obtain ⟨t, ht, rfl | hc⟩ := hc
  · simp only [Con.Holds, eval_V, eval_append, eval_K, eval_tup, pt, asg]
    rw [sum_flatMap_const]
    have : ((meths r).map fun m => numM P I tr m * (P.sub m).count t).sum + tnCount n t = numT P I tr t := by
      rw [numT_balance hv, hn, Nat.add_comm]
      congr 1
      refine sum_list_finset hmnd (fun m hm => Finset.mem_range.2 (hf.meth_lt m (mem_meths.1 hm))) fun m _ hm => ?_
      have : numM P I tr m = 0 := by
        by_contra h
        exact hm (mem_meths.2 (hf.meth m h))
      simp [this]
    have := congrArg (Nat.cast : Nat → ℚ) this
    rw [Nat.cast_add] at this
    rw [Int.cast_natCast]
    exact this
  · split_ifs at hc with hle
    · simp only [List.mem_singleton] at hc
      subst hc
      simp only [Con.Holds, eval_V, eval_sumV_pt, List.map_map, pt, asg]
      have hp : P.prim t = false := by
        rw [hR.prim t (hf.task_lt t ht)]
        exact decide_eq_false (by omega)
      rw [numT_decomposed hv hp]
      have : (((methodsOf P t).filter fun m => decide (m ∈ r.methods)).map (asg P nA nT S I lab tr π ∘ Var.me)).sum =
          ∑ m ∈ (Finset.range P.numMethods).filter (fun m => P.head m = t), numM P I tr m := by
        refine sum_list_finset ((List.nodup_range.filter _).filter _) (fun m hm => ?_) fun m hm hn => ?_
        · simp only [methodsOf, List.mem_filter, List.mem_range, beq_iff_eq] at hm
          exact Finset.mem_filter.2 ⟨Finset.mem_range.2 hm.1.1, hm.1.2⟩
        · by_contra h
          refine hn ?_
          obtain ⟨h1, h2⟩ := Finset.mem_filter.1 hm
          simp only [methodsOf, List.mem_filter, List.mem_range, beq_iff_eq, decide_eq_true_eq]
          exact ⟨⟨Finset.mem_range.1 h1, h2⟩, hf.meth m h⟩
      exact_mod_cast this
    · simp at hc

end

end Verif.Dof
