import Verif.DofSafe

/-! # The net change constraints hold for solutions -/

namespace Verif.Dof

open Verif.Htn Verif.Prog Verif.TaskCounter Verif.Scc Verif.PG Verif.IntUtil Verif.Props Verif.Rc Verif.AO

/-- At most one value of every variable holds. -/
def AtMostOne (vars : List (Nat × Nat)) (s : State) : Prop :=
  ∀ v ∈ vars, ∀ f g, v.1 ≤ f → f ≤ v.2 → v.1 ≤ g → g ≤ v.2 → s f → s g → f = g

/-- Every fact belongs to a variable. -/
def Covered (vars : List (Nat × Nat)) (N : Nat) : Prop := ∀ f < N, ∃ v ∈ vars, v.1 ≤ f ∧ f ≤ v.2

section

variable {P : Problem} {nA nT U : Nat} {S : Sccs} {I : Finset Nat} {lab : Nat → Nat} {s : State} {tr : Nat → Tree} {π : List Nat} {r : PgRes}
  {n : Node} {vars : List (Nat × Nat)}

theorem varOf_some {f : Nat} {v : Nat × Nat} (h : varOf vars f = some v) : v ∈ vars ∧ v.1 ≤ f ∧ f ≤ v.2 := by
  unfold varOf at h
  have h1 := List.mem_of_find?_eq_some h
  have h2 := List.find?_some h
  simp only [Bool.and_eq_true, decide_eq_true_eq] at h2
  exact ⟨List.mem_reverse.1 h1, h2⟩

theorem varOf_covered {N : Nat} (hc : Covered vars N) {f : Nat} (hf : f < N) : ∃ v, varOf vars f = some v := by
  obtain ⟨v, hv, h⟩ := hc f hf
  unfold varOf
  rw [← Option.isSome_iff_exists, List.find?_isSome]
  exact ⟨v, by simpa using hv, by simpa using h⟩

/-- The search for a precondition is defined; what it finds is a precondition in the range. -/
theorem precIn_spec (a : Nat) : ∀ k lo, ∃ o, precIn P a lo k = some o ∧ ∀ p, o = some p → p ∈ P.prec a ∧ lo ≤ p ∧ p < lo + k := by
  intro k
  induction k with
  | zero => exact fun lo => ⟨none, rfl, fun p h => by cases h⟩
  | succ k ih =>
    intro lo
    obtain ⟨b, hb, hm⟩ := containsInt_sound (P.prec a) lo
    rw [precIn, hb]
    cases b with
    | true => exact ⟨some lo, rfl, fun p h => by cases h; exact ⟨hm rfl, le_rfl, by omega⟩⟩
    | false =>
      obtain ⟨o, h1, h2⟩ := ih (lo + 1)
      exact ⟨o, h1, fun p h => by obtain ⟨h3, h4, h5⟩ := h2 p h; exact ⟨h3, by omega, by omega⟩⟩

theorem effClass_spec (a : Nat) {e : Nat} {v : Nat × Nat} (hv : varOf vars e = some v) :
    effClass P vars a e = some .sometimes ∨ (effClass P vars a e = some .keeps ∧ e ∈ P.prec a) ∨
      ∃ p, effClass P vars a e = some (.always p) ∧ p ∈ P.prec a ∧ p ≠ e ∧ v.1 ≤ p ∧ p ≤ v.2 := by
  obtain ⟨o, h1, h2⟩ := precIn_spec (P := P) a (v.2 + 1 - v.1) v.1
  obtain ⟨-, h3, h4⟩ := varOf_some hv
  unfold effClass
  rw [hv]
  simp only [h1]
  cases o with
  | none => exact .inl rfl
  | some p =>
    obtain ⟨h5, h6, h7⟩ := h2 p rfl
    simp only
    split_ifs with e'
    · subst e'
      exact .inr (.inl ⟨rfl, h5⟩)
    · exact .inr (.inr ⟨p, rfl, h5, e', h6, by omega⟩)

theorem mem_apList {a f : Nat} : a ∈ apList P nA vars f ↔ a < nA ∧ f ∈ P.add a ∧ ∃ p, effClass P vars a f = some (.always p) := by
  simp only [apList, List.mem_filter, List.mem_range, List.any_eq_true, Bool.and_eq_true, beq_iff_eq]
  constructor
  · rintro ⟨h1, e, h2, rfl, h3⟩
    refine ⟨h1, h2, ?_⟩
    split at h3
    · rename_i p e'; exact ⟨p, e'⟩
    · cases h3
  · rintro ⟨h1, h2, p, h3⟩
    exact ⟨h1, f, h2, rfl, by rw [h3]⟩

theorem mem_spList {a f : Nat} : a ∈ spList P nA vars f ↔ a < nA ∧ f ∈ P.add a ∧ effClass P vars a f = some .sometimes := by
  simp only [spList, List.mem_filter, List.mem_range, List.any_eq_true, Bool.and_eq_true, beq_iff_eq]
  exact ⟨fun ⟨h1, e, h2, h3, h4⟩ => by subst h3; exact ⟨h1, h2, h4⟩, fun ⟨h1, h2, h3⟩ => ⟨h1, f, h2, rfl, h3⟩⟩

theorem mem_acList {a f : Nat} : a ∈ acList P nA vars f ↔ a < nA ∧ ∃ e ∈ P.add a, effClass P vars a e = some (.always f) := by
  simp [acList]

theorem mem_lists_lt {a f : Nat} :
    (a ∈ apList P nA vars f → a < nA) ∧ (a ∈ spList P nA vars f → a < nA) ∧ (a ∈ acList P nA vars f → a < nA) :=
  ⟨fun h => (mem_apList.1 h).1, fun h => (mem_spList.1 h).1, fun h => (mem_acList.1 h).1⟩

/-- What an action contributes to the net change of a fact. -/
noncomputable def contrib (P : Problem) (nA : Nat) (vars : List (Nat × Nat)) (f a : Nat) : Int :=
  (if a ∈ apList P nA vars f then 1 else 0) + (if a ∈ spList P nA vars f then 1 else 0) - (if a ∈ acList P nA vars f then 1 else 0)

open Classical in
/-- The change of a fact is bounded by the contributions of the executed actions. -/
theorem net_change (hP : P.WF) (hcov : Covered vars P.numFacts) {f : Nat} (hf : f < P.numFacts) {s s' : State} {π : List Nat}
    (hex : Exec P s π s') (hπ : ∀ a ∈ π, a < nA ∧ P.prim a = true) (hmx : ∀ π₁ s₁, Exec P s π₁ s₁ → AtMostOne vars s₁) :
    (if s' f then (1 : Int) else 0) - (if s f then 1 else 0) ≤ (π.map (contrib P nA vars f)).sum := by
  induction hex with
  | nil s => simp
  | @cons s s' a π hap hex ih =>
    have ih' := ih (fun b hb => hπ b (List.mem_cons_of_mem _ hb)) fun π₁ s₁ h => hmx (a :: π₁) s₁ (.cons hap h)
    obtain ⟨ha, hpa⟩ := hπ a List.mem_cons_self
    rw [List.map_cons, List.sum_cons]
    have hstep : (if P.result s a f then (1 : Int) else 0) - (if s f then 1 else 0) ≤ contrib P nA vars f a := by
      have hac : a ∈ acList P nA vars f → s f ∧ ¬ P.result s a f := by
        intro h
        obtain ⟨-, e, he, hc⟩ := mem_acList.1 h
        have he' : e < P.numFacts := hP.add_lt a e he
        obtain ⟨v, hv⟩ := varOf_covered hcov he'
        obtain ⟨hv1, hv2, hv3⟩ := varOf_some hv
        rcases effClass_spec (P := P) a hv with h1 | ⟨h1, -⟩ | ⟨p, h1, h2, h3, h4, h5⟩
        · rw [h1] at hc; cases hc
        · rw [h1] at hc; cases hc
        · rw [h1] at hc
          cases hc
          refine ⟨hap f h2, fun hr => h3 ?_⟩
          exact hmx [a] _ (.cons hap (.nil _)) v hv1 f e h4 h5 hv2 hv3 hr (.inl he)
      have hnn : 0 ≤ (if a ∈ apList P nA vars f then (1 : Int) else 0) + (if a ∈ spList P nA vars f then 1 else 0) := by split_ifs <;> omega
      unfold contrib
      by_cases hsf : s f
      · by_cases hrf : P.result s a f
        · rw [if_neg (fun h => (hac h).2 hrf)]
          simp only [hsf, hrf, if_true]
          omega
        · simp only [hsf, hrf, if_true, if_false]
          split_ifs <;> omega
      · rw [if_neg (c := a ∈ acList P nA vars f) (fun h => hsf (hac h).1)]
        by_cases hrf : P.result s a f
        · simp only [hsf, hrf, if_true, if_false]
          have hadd : f ∈ P.add a := by
            rcases hrf with h | h
            · exact h
            · exact absurd h.1 hsf
          obtain ⟨v, hv⟩ := varOf_covered hcov hf
          rcases effClass_spec (P := P) a hv with h1 | ⟨-, h1⟩ | ⟨p, h1, -⟩
          · rw [if_pos (c := a ∈ spList P nA vars f) (mem_spList.2 ⟨ha, hadd, h1⟩)]
            split_ifs <;> omega
          · exact absurd (hap f h1) hsf
          · rw [if_pos (c := a ∈ apList P nA vars f) (mem_apList.2 ⟨ha, hadd, p, h1⟩)]
            split_ifs <;> omega
        · simp only [hsf, hrf, if_false]
          omega
    omega

theorem sum_count_mem (A : Finset Nat) (π : List Nat) : ∑ a ∈ A, π.count a = (π.map fun a => if a ∈ A then 1 else 0).sum := by
  induction π with
  | nil => simp
  | cons b π ih =>
    simp only [List.count_cons, List.map_cons, List.sum_cons, Finset.sum_add_distrib, ih, beq_iff_eq]
    rw [Finset.sum_ite_eq]
    omega

/-- Sums over stored lists of actions count the occurrences in the plan. -/
theorem sum_list_plan (hP : P.WF) (hR : RcOK P nA nT) (h : Relaxed P I lab s tr π) (hf : Fits P nA nT I s tr r) {l : List Nat} (hl : l.Nodup)
    (hlt : ∀ a ∈ l, a < nA) :
    ((l.filter fun a => decide (a ∈ r.tasks)).map fun a => pt P nA nT S I lab tr π (.ua a)).sum =
      (((π.map fun a => if a ∈ l then (1 : Int) else 0).sum : Int) : ℚ) := by
  have h1 : ((l.filter fun a => decide (a ∈ r.tasks)).map fun a => numT P I tr a).sum = (π.map fun a => if a ∈ l then 1 else 0).sum := by
    have e : (l.filter fun a => decide (a ∈ r.tasks)).map (fun a => numT P I tr a) = (l.filter fun a => decide (a ∈ r.tasks)).map fun a => π.count a := by
      refine List.map_congr_left fun a ha => ?_
      obtain ⟨h1, h2⟩ := List.mem_filter.1 ha
      have h2 : a ∈ r.tasks := of_decide_eq_true h2
      rw [h.count hP]
      rw [hR.prim a (hf.task_lt a h2)]
      exact decide_eq_true (hlt a h1)
    rw [e, ← List.sum_toFinset _ (hl.filter _), sum_count_mem]
    refine congrArg List.sum (List.map_congr_left fun a ha => ?_)
    have := hf.task a ((h.mem_iff hP (h.prim ha)).1 ha)
    simp [this]
  have h2 := sum_cast (l.filter fun a => decide (a ∈ r.tasks)) fun a => numT P I tr a
  have h3 : ((l.filter fun a => decide (a ∈ r.tasks)).map fun a => pt P nA nT S I lab tr π (.ua a)).sum =
      ((l.filter fun a => decide (a ∈ r.tasks)).map fun a => ((numT P I tr a : Nat) : ℚ)).sum := rfl
  rw [h3, h2, h1]
  clear h1 h2 h3 h
  induction π with
  | nil => simp
  | cons b π ih =>
    simp only [List.map_cons, List.sum_cons]
    rw [Nat.cast_add, Int.cast_add, ih]
    split_ifs <;> simp

theorem inGoal_sound {f : Nat} (h : inGoal P f = true) : f ∈ P.goal := by
  obtain ⟨b, h1, h2⟩ := containsInt_sound P.goal f
  unfold inGoal at h
  rw [h1] at h
  exact h2 h

theorem consNc_holds (hP : P.WF) (hR : RcOK P nA nT) {s' : State} (h : Relaxed P I lab s tr π) (hex : Exec P s π s') (hg : P.GoalState s')
    (hf : Fits P nA nT I s tr r) (hn : ∀ f, stateOf n f = true ↔ s f)
    (hcov : Covered vars P.numFacts) (hmx : ∀ π₁ s₁, Exec P s π₁ s₁ → AtMostOne vars s₁) :
    ∀ c ∈ consNc P nA vars n r, c.Holds (pt P nA nT S I lab tr π) := by
  classical
  intro c hc
  simp only [consNc, List.mem_map, List.mem_filter, List.mem_range, decide_eq_true_eq] at hc
  obtain ⟨f, ⟨hlt, hu⟩, rfl⟩ := hc
  have hsf := hf.useful f hu
  have hst : stateOf n f = false := by
    by_contra hne
    exact hsf ((hn f).1 (by simpa using hne))
  simp only [Con.Holds, eval_append, eval_K, eval_sumV, List.map_map, eval_map, Function.comp_def]
  have e1 := sum_list_plan (S := S) (l := apList P nA vars f) hP hR h hf (List.nodup_range.filter _) fun a ha => (mem_apList.1 ha).1
  have e2 := sum_list_plan (S := S) (l := spList P nA vars f) hP hR h hf (List.nodup_range.filter _) fun a ha => (mem_spList.1 ha).1
  have e3 := sum_list_plan (S := S) (l := acList P nA vars f) hP hR h hf (List.nodup_range.filter _) fun a ha => (mem_acList.1 ha).1
  have e4 : ∀ l : List Nat, (l.map fun a => ((-1 : Int) : ℚ) * pt P nA nT S I lab tr π (.ua a)).sum = -(l.map fun a => pt P nA nT S I lab tr π (.ua a)).sum := by
    intro l
    induction l with
    | nil => simp
    | cons a l ih =>
      rw [List.map_cons, List.sum_cons, ih, List.map_cons, List.sum_cons]
      push_cast
      ring
  rw [e4, e1, e2, e3]
  have key := net_change (nA := nA) hP hcov hlt hex (fun a ha => ⟨h.lt hP hR hf ha, h.prim ha⟩) hmx
  have hsum : (π.map (contrib P nA vars f)).sum = (π.map fun a => if a ∈ apList P nA vars f then (1 : Int) else 0).sum +
      (π.map fun a => if a ∈ spList P nA vars f then (1 : Int) else 0).sum - (π.map fun a => if a ∈ acList P nA vars f then (1 : Int) else 0).sum := by
    clear key hex h e1 e2 e3 e4
    induction π with
    | nil => simp
    | cons b π ih =>
      simp only [List.map_cons, List.sum_cons]
      rw [ih, show contrib P nA vars f b = (if b ∈ apList P nA vars f then 1 else 0) + (if b ∈ spList P nA vars f then 1 else 0) -
        (if b ∈ acList P nA vars f then 1 else 0) from rfl]
      omega
  have hb : ncBound P vars n f ≤ (if s' f then (1 : Int) else 0) - (if s f then 1 else 0) := by
    unfold ncBound
    simp only [hst, Bool.false_eq_true, if_false, hsf]
    split_ifs with h1 h2
    · omega
    · exact absurd (hg f (inGoal_sound h1)) h2
    · omega
    · omega
  have hfin : ncBound P vars n f ≤ (π.map fun a => if a ∈ apList P nA vars f then (1 : Int) else 0).sum +
      (π.map fun a => if a ∈ spList P nA vars f then (1 : Int) else 0).sum - (π.map fun a => if a ∈ acList P nA vars f then (1 : Int) else 0).sum := by
    rw [← hsum]
    exact hb.trans key
  have := (Int.cast_le (R := ℚ)).2 hfin
  rw [Int.cast_sub, Int.cast_add] at this
  linarith

end

end Verif.Dof
