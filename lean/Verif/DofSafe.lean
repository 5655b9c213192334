import Verif.DofLayer

/-! # Landmark constraints, bounds and the objective for solutions of the relaxation -/

namespace Verif.Dof

open Verif.Htn Verif.Prog Verif.TaskCounter Verif.Scc Verif.PG Verif.IntUtil Verif.Props Verif.Rc Verif.AO

theorem occT_iff {P : Problem} {t : Nat} : ∀ tr : Tree, tr.occT P t ≠ 0 ↔ TaskIn P tr t := by
  intro tr
  induction tr with
  | leaf a =>
    unfold Tree.occT
    constructor
    · intro h
      split_ifs at h with e
      · rw [← e]; exact .leaf
      · exact absurd rfl h
    · rintro ⟨⟩
      simp
  | node m cs ih =>
    unfold Tree.occT
    constructor
    · intro h
      by_cases e : P.head m = t
      · rw [← e]; exact .node
      · rw [if_neg e, Nat.zero_add] at h
        obtain ⟨i, hi, h⟩ := Finset.exists_ne_zero_of_sum_ne_zero h
        exact .child (Finset.mem_range.1 hi) ((ih i).1 h)
    · rintro (_ | _ | ⟨hi, h⟩)
      · simp
      · rename_i i
        have h1 := (ih i).2 h
        have := Finset.single_le_sum (f := fun i => (cs i).occT P t) (fun _ _ => Nat.zero_le _) (Finset.mem_range.2 hi)
        omega

theorem occM_iff {P : Problem} {x : Nat} : ∀ tr : Tree, tr.occM P x ≠ 0 ↔ Uses P tr x := by
  intro tr
  induction tr with
  | leaf a =>
    unfold Tree.occM
    constructor
    · intro h; exact absurd rfl h
    · rintro ⟨⟩
  | node m cs ih =>
    unfold Tree.occM
    constructor
    · intro h
      by_cases e : m = x
      · rw [← e]; exact .here
      · rw [if_neg e, Nat.zero_add] at h
        obtain ⟨i, hi, h⟩ := Finset.exists_ne_zero_of_sum_ne_zero h
        exact .child (Finset.mem_range.1 hi) ((ih i).1 h)
    · rintro (_ | ⟨hi, h⟩)
      · simp
      · rename_i i
        have h1 := (ih i).2 h
        have := Finset.single_le_sum (f := fun i => (cs i).occM P x) (fun _ _ => Nat.zero_le _) (Finset.mem_range.2 hi)
        omega

section

variable {P : Problem} {nA nT U : Nat} {S : Sccs} {I : Finset Nat} {lab : Nat → Nat} {s : State} {tr : Nat → Tree} {π : List Nat} {r : PgRes}
  {n : Node}

theorem numT_iff {t : Nat} : numT P I tr t ≠ 0 ↔ ∃ u ∈ I, TaskIn P (tr u) t := by
  unfold numT
  constructor
  · intro h
    obtain ⟨u, hu, h⟩ := Finset.exists_ne_zero_of_sum_ne_zero h
    exact ⟨u, hu, (occT_iff _).1 h⟩
  · rintro ⟨u, hu, h⟩
    have := Finset.single_le_sum (f := fun u => (tr u).occT P t) (fun _ _ => Nat.zero_le _) hu
    have h1 := (occT_iff _).2 h
    omega

theorem numM_iff {m : Nat} : numM P I tr m ≠ 0 ↔ ∃ u ∈ I, Uses P (tr u) m := by
  unfold numM
  constructor
  · intro h
    obtain ⟨u, hu, h⟩ := Finset.exists_ne_zero_of_sum_ne_zero h
    exact ⟨u, hu, (occM_iff _).1 h⟩
  · rintro ⟨u, hu, h⟩
    have := Finset.single_le_sum (f := fun u => (tr u).occM P m) (fun _ _ => Nat.zero_le _) hu
    have h1 := (occM_iff _).2 h
    omega

/-! ## Solutions are solutions of the relaxation -/

theorem exec_adds {s s' : State} {π : List Nat} (h : Exec P s π s') {f : Nat} (hf : s' f) : s f ∨ ∃ a ∈ π, f ∈ P.add a := by
  induction h with
  | nil s => exact .inl hf
  | @cons s s' a π hap hex ih =>
    rcases ih hf with h | ⟨b, hb, h⟩
    · unfold Problem.result at h
      rcases h with h | h
      · exact .inr ⟨a, by simp, h⟩
      · exact .inl h.1
    · exact .inr ⟨b, by simp [hb], h⟩

theorem exec_split {s s' : State} {π₁ π₂ : List Nat} (h : Exec P s (π₁ ++ π₂) s') : ∃ s₁, Exec P s π₁ s₁ ∧ Exec P s₁ π₂ s' := by
  induction π₁ generalizing s with
  | nil => exact ⟨s, .nil _, h⟩
  | cons a π₁ ih =>
    cases h with
    | cons hap hex =>
      obtain ⟨s₁, h1, h2⟩ := ih hex
      exact ⟨s₁, .cons hap h1, h2⟩

theorem exec_relaxed {lt : Nat → Nat → Prop} {occ : List (Nat × List Nat)} {s' : State} (hl : LinNet P I lab lt tr occ π) (hex : Exec P s π s')
    (hg : P.GoalState s') : Relaxed P I lab s tr π where
  valid := hl.valid
  perm := hl.perm
  prec := by
    rintro π₁ a π₂ rfl f hf
    obtain ⟨s₁, h1, h2⟩ := exec_split hex
    cases h2 with
    | cons hap _ => exact exec_adds h1 (hap f hf)
  goal := fun f hf => exec_adds hex (hg f hf)

theorem factIn_adds {f : Nat} (h : FactIn P s π f) : s f ∨ ∃ a ∈ π, f ∈ P.add a := by
  obtain ⟨π₁, π₂, s₁, rfl, h1, h2⟩ := h
  rcases exec_adds h1 h2 with h | ⟨a, ha, h⟩
  · exact .inl h
  · exact .inr ⟨a, by simp [ha], h⟩

theorem adds_factIn {s' : State} (hex : Exec P s π s') {a f : Nat} (ha : a ∈ π) (hf : f ∈ P.add a) : FactIn P s π f := by
  obtain ⟨π₁, π₂, rfl⟩ := List.append_of_mem ha
  obtain ⟨s₁, h1, h2⟩ := exec_split (π₁ := π₁ ++ [a]) (π₂ := π₂) (by simpa using hex)
  refine ⟨π₁ ++ [a], π₂, s₁, by simp, h1, ?_⟩
  obtain ⟨s₀, h3, h4⟩ := exec_split h1
  cases h4 with
  | cons _ h5 =>
    cases h5
    exact .inl hf

/-! ## Landmarks -/

/-- What the node of the AND/OR graph stands for occurs in the solution. -/
def MetR (P : Problem) (nT : Nat) (I : Finset Nat) (s : State) (tr : Nat → Tree) (π : List Nat) (x : Nat) : Prop :=
  if x < P.numFacts then s x ∨ ∃ a ∈ π, x ∈ P.add a
  else if x < P.numFacts + nT then numT P I tr (x - P.numFacts) ≠ 0 else numM P I tr (x - P.numFacts - nT) ≠ 0

theorem Met.metR {x : Nat} (h : Met P nT s π I tr x) : MetR P nT I s tr π x := by
  unfold MetR
  rcases h with ⟨f, hf, rfl, h⟩ | ⟨t, ht, rfl, h⟩ | ⟨m, hm, rfl, h⟩
  · rw [if_pos hf]
    exact factIn_adds h
  · unfold tN
    rw [if_neg (by omega), if_pos (by omega), Nat.add_sub_cancel_left]
    exact numT_iff.2 h
  · unfold mN
    rw [if_neg (by omega), if_neg (by omega), show P.numFacts + nT + m - P.numFacts - nT = m by omega]
    exact numM_iff.2 h

/-- The landmarks are landmarks. -/
structure LmsHold (P : Problem) (nT : Nat) (I : Finset Nat) (s : State) (tr : Nat → Tree) (π : List Nat) (cf : Conf) (r : PgRes) (L : Lms) :
    Prop where
  cuts : cf.lmc = true → ∀ cut ∈ L.cuts, (∃ a ∈ cut.2.take cut.1, a ∈ π) ∨ ∃ m ∈ cut.2.drop cut.1, numM P I tr m ≠ 0
  lms : cf.ao ≠ .none → ∀ x ∈ L.lms, MetR P nT I s tr π x
  impT : cf.ao = .full → ∀ t, numT P I tr t ≠ 0 → ∀ x ∈ L.imp (tN P t), MetR P nT I s tr π x
  impM : cf.ao = .full → ∀ m, numM P I tr m ≠ 0 → ∀ x ∈ L.imp (mN P nT m), MetR P nT I s tr π x
  impF : cf.ao = .full → ∀ f ∈ r.useful, (∃ a ∈ π, f ∈ P.add a) → ∀ x ∈ L.imp f, MetR P nT I s tr π x

theorem consCut_holds (hP : P.WF) (h : Relaxed P I lab s tr π) (hf : Fits P nA nT I s tr r) {cut : Nat × List Nat}
    (hc : (∃ a ∈ cut.2.take cut.1, a ∈ π) ∨ ∃ m ∈ cut.2.drop cut.1, numM P I tr m ≠ 0) : (consCut r cut).Holds (pt P nA nT S I lab tr π) := by
  simp only [Con.Holds, consCut, eval_append, eval_K, eval_sumV_pt, List.map_map]
  have : 1 ≤ (((cut.2.take cut.1).filter fun a => decide (a ∈ r.tasks)).map (asg P nA nT S I lab tr π ∘ Var.ua)).sum +
      (((cut.2.drop cut.1).filter fun a => decide (a ∈ r.methods)).map (asg P nA nT S I lab tr π ∘ Var.me)).sum := by
    rcases hc with ⟨a, ha, hπ⟩ | ⟨m, hm, h0⟩
    · have h0 := (h.mem_iff hP (h.prim hπ)).1 hπ
      have := le_sum_map (l := (cut.2.take cut.1).filter fun a => decide (a ∈ r.tasks)) (g := asg P nA nT S I lab tr π ∘ Var.ua) (a := a) (List.mem_filter.2 ⟨ha, decide_eq_true (hf.task a h0)⟩)
      simp only [Function.comp_def, asg] at this ⊢
      omega
    · have := sum_me (S := S) (lab := lab) (π := π) hf hm h0
      omega
  have := (Nat.cast_le (α := ℚ)).2 this
  rw [Nat.cast_add] at this
  simpa using this

/-- The variable of a landmark that occurs is at least 1. -/
theorem lmVar_pos (hn : ∀ f, stateOf n f = true ↔ s f) {x : Nat} {v : Var} (hx : MetR P nT I s tr π x)
    (hv : lmVar P nT n r x = some v) : 1 ≤ asg P nA nT S I lab tr π v := by
  unfold lmVar at hv
  unfold MetR at hx
  split_ifs at hv hx with h1 h2 h3 h4 h5
  · cases hv
    have := hx.resolve_left fun h => by rw [(hn x).2 h] at h2; simp at h2
    have := achiever_isSome.2 this
    simp [asg, this]
  · cases hv
    simp only [asg]
    omega
  · cases hv
    simp only [asg]
    omega

theorem lmVar_none (hf : Fits P nA nT I s tr r) {x : Nat} (hx : MetR P nT I s tr π x) (hv : lmVar P nT n r x = none) : x < P.numFacts := by
  unfold lmVar at hv
  unfold MetR at hx
  split_ifs at hv hx with h1 h2 h3 h4 h5
  · exact h1
  · exact absurd (hf.task _ hx) h4
  · exact absurd (hf.meth _ hx) h5

theorem consLms_holds (hn : ∀ f, stateOf n f = true ↔ s f) {lms : List Nat} (hl : ∀ x ∈ lms, MetR P nT I s tr π x) :
    ∀ c ∈ consLms P nT n r lms, c.Holds (pt P nA nT S I lab tr π) := by
  intro c hc
  simp only [consLms, List.mem_map, List.mem_filterMap] at hc
  obtain ⟨v, ⟨x, hx, hv⟩, rfl⟩ := hc
  simp only [Con.Holds, eval_V, eval_K, pt]
  have := lmVar_pos (nA := nA) (S := S) (lab := lab) hn (hl x hx) hv
  simpa using this

theorem consImp_holds (hf : Fits P nA nT I s tr r) (hn : ∀ f, stateOf n f = true ↔ s f)
    (hrF : ∀ f < P.numFacts, (s f ∨ ∃ a ∈ π, f ∈ P.add a) → r.hP f ≠ U) {y : Var} {x : Nat}
    (hy : asg P nA nT S I lab tr π y ≤ 100) (hx : asg P nA nT S I lab tr π y ≠ 0 → MetR P nT I s tr π x) :
    ∀ c ∈ consImp P nT U n r y x, c.Holds (pt P nA nT S I lab tr π) := by
  intro c hc
  unfold consImp at hc
  by_cases h0 : asg P nA nT S I lab tr π y = 0
  · cases e : lmVar P nT n r x with
    | some v =>
      rw [e] at hc
      simp only [List.mem_singleton] at hc
      subst hc
      simp only [Con.Holds, eval_V, eval_cV, pt, h0]
      positivity
    | none =>
      rw [e] at hc
      simp only at hc
      split_ifs at hc
      · simp at hc
      · simp only [List.mem_singleton] at hc
        subst hc
        simp [Con.Holds, pt, h0]
  · have hx := hx h0
    cases e : lmVar P nT n r x with
    | some v =>
      rw [e] at hc
      simp only [List.mem_singleton] at hc
      subst hc
      simp only [Con.Holds, eval_V, eval_cV, pt]
      have := lmVar_pos (nA := nA) (S := S) (lab := lab) hn hx e
      have : asg P nA nT S I lab tr π y ≤ 100 * asg P nA nT S I lab tr π v := by omega
      exact_mod_cast this
    | none =>
      rw [e] at hc
      have hlt := lmVar_none hf hx e
      unfold MetR at hx
      rw [if_pos hlt] at hx
      simp only [hlt, hrF x hlt hx, ne_eq, not_false_eq_true, and_self, if_true] at hc
      simp at hc

theorem consImps_holds (hP : P.WF) (hv : ∀ u ∈ I, Valid P (lab u) (tr u)) (hf : Fits P nA nT I s tr r) (hn : ∀ f, stateOf n f = true ↔ s f)
    (hrF : ∀ f < P.numFacts, (s f ∨ ∃ a ∈ π, f ∈ P.add a) → r.hP f ≠ U) (h100 : ∀ t, numT P I tr t ≤ 100)
    {cf : Conf} (hcf : cf.ao = .full) {L : Lms} (hL : LmsHold P nT I s tr π cf r L) :
    ∀ c ∈ consImps P nT U n r L.imp, c.Holds (pt P nA nT S I lab tr π) := by
  intro c hc
  simp only [consImps, List.mem_append, List.mem_flatMap] at hc
  rcases hc with (⟨t, ht, x, hx, hc⟩ | ⟨m, hm, x, hx, hc⟩) | ⟨f, hu, x, hx, hc⟩
  · exact consImp_holds hf hn hrF (by simp only [asg]; exact h100 t) (fun h => hL.impT hcf t (by simpa only [asg] using h) x hx) c hc
  · exact consImp_holds hf hn hrF (by simp only [asg]; exact (numM_le hP hv m).trans (h100 _)) (fun h => hL.impM hcf m (by simpa only [asg] using h) x hx) c hc
  · refine consImp_holds hf hn hrF (by simp only [asg]; split_ifs <;> omega) (fun h => hL.impF hcf f (mem_useful'.1 hu) ?_ x hx) c hc
    simp only [asg] at h
    by_contra hno
    rw [if_neg (fun h' => hno (achiever_isSome.1 h'))] at h
    exact h rfl

/-! ## Bounds -/

theorem numT_le (hP : P.WF) (hR : RcOK P nA nT) (h : Relaxed P I lab s tr π) (hf : Fits P nA nT I s tr r) (t : Nat) :
    numT P I tr t ≤ π.length + ∑ u ∈ I, (tr u).inner P := by
  by_cases h0 : numT P I tr t = 0
  · omega
  by_cases hp : P.prim t = true
  · rw [← h.count hP hp]
    have := List.count_le_length (a := t) (l := π)
    omega
  · rw [numT_decomposed h.valid (by simpa using hp), inner_sum h.valid]
    have := Finset.sum_le_sum_of_subset (f := numM P I tr) (Finset.filter_subset (fun m => P.head m = t) (Finset.range P.numMethods))
    omega

theorem bounds_hold (hP : P.WF) (hR : RcOK P nA nT) (h : Relaxed P I lab s tr π) (hf : Fits P nA nT I s tr r) {cf : Conf}
    (hU : π.length + ∑ u ∈ I, (tr u).inner P ≤ U) (hU1 : 1 ≤ U) :
    ∀ d ∈ decls P nA U S cf r, asg P nA nT S I lab tr π d.var ≤ d.up := by
  have hπ : ∀ a ∈ π, a < nA := fun a ha => h.lt hP hR hf ha
  have hly : ∀ c k i, asg P nA nT S I lab tr π (.ly c k i) ≤ U := by
    intro c k i
    simp only [asg]
    split_ifs <;> omega
  have hin : ∀ c k i j, asg P nA nT S I lab tr π (.inn c k i j) ≤ U := by
    intro c k i j
    cases k with
    | zero => simp [asg]
    | succ k =>
      simp only [asg]
      split_ifs <;> omega
  intro d hd
  simp only [decls, declsBase, List.mem_append, List.mem_map, List.mem_flatMap] at hd
  rcases hd with ((((⟨f, -, rfl⟩ | ⟨t, -, rfl⟩) | ⟨m, -, rfl⟩) | ⟨a, -, i, -, rfl⟩) | hd) | hd
  · simp only [asg]
    split_ifs <;> omega
  · exact (numT_le hP hR h hf t).trans hU
  · exact ((numM_le hP h.valid m).trans (numT_le hP hR h hf _)).trans hU
  · simp only [asg]
    split_ifs <;> omega
  · unfold declsTime at hd
    split_ifs at hd
    · simp at hd
    · simp only [List.mem_append, List.mem_map] at hd
      rcases hd with ⟨f, -, rfl⟩ | ⟨a, -, rfl⟩
      · simp only [asg]
        cases e : achiever P π f with
        | none => simp
        | some b => exact rank_bound hπ (achiever_some e).1
      · simp only [asg]
        split
        · rename_i ha; exact (rank_bound hπ ha).le
        · exact le_rfl
  · split_ifs at hd
    · simp only [declsScc, List.mem_flatMap, List.mem_append, List.mem_map, List.mem_cons] at hd
      obtain ⟨c, -, ⟨i, -, rfl⟩ | ⟨k, -, i, -, rfl | ⟨j, -, rfl⟩⟩⟩ := hd
      · exact hly _ _ _
      · exact hly _ _ _
      · exact hin _ _ _ _
    · simp at hd

/-! ## Objective -/

theorem sum_count {l : List Nat} (hl : l.Nodup) (hπ : ∀ a ∈ π, a ∈ l) (g : Nat → Nat) : (l.map fun a => g a * π.count a).sum = (π.map g).sum := by
  rw [← List.sum_toFinset _ hl]
  have : ∀ a ∈ π.toFinset, a ∈ l.toFinset := fun a ha => List.mem_toFinset.2 (hπ a (List.mem_toFinset.1 ha))
  rw [← Finset.sum_subset (s₁ := π.toFinset) this]
  · rw [Finset.sum_list_map_count]
    exact Finset.sum_congr rfl fun a _ => by rw [nsmul_eq_mul, Nat.cast_id, Nat.mul_comm]
  · intro a _ ha
    rw [List.count_eq_zero_of_not_mem fun h => ha (List.mem_toFinset.2 h), Nat.mul_zero]

/-- The objective at the point: the cost of the actions, or the number of actions and methods. -/
theorem objective_pt (hP : P.WF) (hR : RcOK P nA nT) (h : Relaxed P I lab s tr π) (hf : Fits P nA nT I s tr r) {cf : Conf} :
    eval (pt P nA nT S I lab tr π) (objective P nA cf r) =
      ((if cf.optimal then (π.map P.cost).sum else π.length + ∑ u ∈ I, (tr u).inner P : Nat) : ℚ) := by
  have hπ : ∀ a ∈ π, a ∈ acts nA r := fun a ha =>
    hf.shape.mem_acts.2 ⟨hf.task a ((h.mem_iff hP (h.prim ha)).1 ha), h.lt hP hR hf ha⟩
  have hc : ∀ g : Nat → Nat, ((acts nA r).map fun a => ((g a : Nat) : ℚ) * pt P nA nT S I lab tr π (.ua a)).sum = (((π.map g).sum : Nat) : ℚ) := by
    intro g
    rw [← sum_count hf.shape.acts_nodup hπ g, ← sum_cast]
    refine congrArg List.sum (List.map_congr_left fun a ha => ?_)
    rw [Nat.cast_mul]
    simp only [pt, asg]
    rw [h.count hP (act_prim hR hf ha)]
  unfold objective
  rw [eval_append, eval_map]
  by_cases ho : cf.optimal = true
  · simp only [ho, if_true, eval_nil, add_zero]
    rw [← hc]
    simp
  · simp only [ho, if_false, Bool.false_eq_true]
    rw [eval_map]
    have h1 := hc fun _ => 1
    simp only [List.map_const', List.sum_replicate, nsmul_eq_mul, Nat.cast_id, mul_one] at h1
    have h2 : ((meths r).map fun m => ((1 : Int) : ℚ) * pt P nA nT S I lab tr π (.me m)).sum = ((∑ u ∈ I, (tr u).inner P : Nat) : ℚ) := by
      rw [inner_sum h.valid, ← sum_list_finset (l := meths r) (A := Finset.range P.numMethods) (g := numM P I tr) (by simpa [meths] using hf.shape.mnd)
        (fun m hm => Finset.mem_range.2 (hf.meth_lt m (mem_meths.1 hm))) (fun m _ hm => by
          by_contra h0
          exact hm (mem_meths.2 (hf.meth m h0))), ← sum_cast]
      exact congrArg List.sum (List.map_congr_left fun m _ => by simp [pt, asg])
    rw [h2]
    push_cast at h1 ⊢
    rw [h1]

end

end Verif.Dof
