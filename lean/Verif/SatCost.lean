import Verif.SatPrint

/-! # Model of the optimisation of plan costs by the SAT planner (src/sat/sat_planner.cpp 483-512, 707-777), totally ordered problems

The costs are those after `useLogCostsForOptimisation` (sat_planner.cpp 1081-1086), a parameter here.  Overflow of the
sums is not modelled. -/

namespace Verif.Pdt

open Verif.Htn Verif.Sog Verif.Sat Verif.Inv

/-- The greatest cost of a leaf divided by the factor (sat_planner.cpp 486-492). -/
def leafMax (cost : Nat → Nat) (F : Nat) (vars : List (Nat × Nat)) : Nat := vars.foldl (fun m e => max m (cost e.2)) 0 / F

/-- The cost variables of a leaf and their clauses (sat_planner.cpp 495-506). -/
def leafCosts (cost : Nat → Nat) (F n : Nat) (vars : List (Nat × Nat)) : List Nat × List Clause :=
  ((List.range (leafMax cost F vars)).map fun c => n + 1 + c,
   (List.range (leafMax cost F vars)).flatMap fun c => vars.map fun e =>
    if c + 1 ≤ cost e.2 / F then [-(e.1 : Int), ((n + 1 + c : Nat) : Int)] else impliesNot e.1 ((n + 1 + c : Nat) : Int))

/-- All leaves: new number of variables, cost variables, clauses (sat_planner.cpp 484-507). -/
def costVars (cost : Nat → Nat) (F : Nat) : Nat → List (List (Nat × Nat)) → Nat × List Nat × List Clause
  | n, [] => (n, [], [])
  | n, vars :: rest =>
    let r := costVars cost F (n + leafMax cost F vars) rest
    (r.1, (leafCosts cost F n vars).1 ++ r.2.1, (leafCosts cost F n vars).2 ++ r.2.2)

/-- The clauses for the bound `B` (sat_planner.cpp 483-512). -/
def costFormula (cost : Nat → Nat) (F : Nat) (B : Int) (n : Nat) (vars : List (List (Nat × Nat))) : Nat × List Clause :=
  let r := costVars cost F n vars
  let k := atMostK r.1 (B.tdiv F) (r.2.1.map fun x : Nat => (x : Int))
  (k.1, r.2.2 ++ k.2)

/-- `createFormulaForDepth` in cost mode. -/
def costDepth (P : Problem) (o : SatOpts) (cost : Nat → Nat) (F : Nat) (B : Int) (t : T) (n : Nat) (V : VM) : FRes :=
  match depthFormula P o t n V with
  | .undef => .undef
  | .pruned => .pruned
  | .formula V' n' cs =>
    let r := costFormula cost F B n' (t.leaves.map (leafVars V' t))
    .formula V' r.1 (cs ++ r.2)

/-- Costs of a plan. -/
def sumCost (cost : Nat → Nat) (π : List Nat) : Nat := (π.map cost).sum

/-- `optimise_with_sat_planner_linear_bound_increase` (sat_planner.cpp 707-777): the printed plans with their depths, up to
a number of steps; `none` for undefined behaviour.  `L` is `lastImprovedDepth`.  After a plan the tree is built anew. -/
def optLoop (P : Problem) (cfg : Cfg) (o : SatOpts) (cost : Nat → Nat) (solve : List Clause → Option Assignment) :
    (fuel K L n : Nat) → VM → (F : Nat) → (B : Int) → Option (List (Nat × List Nat))
  | 0, _, _, _, _, _, _ => some []
  | f + 1, K, L, n, V, F, B =>
    let next := fun (n : Nat) (V : VM) =>
      if K + 1 + 15 < L then optLoop P cfg o cost solve f L L n V 1 (B + 999)
      else optLoop P cfg o cost solve f (K + 1) L n V F B
    match costDepth P o cost F B (tree P cfg K) n V with
    | .undef => none
    | .pruned => next n V
    | .formula V' n' cs =>
      match solve cs with
      | none => next n' V'
      | some w =>
        let π := printed (tree P cfg K) V' w
        let F' := if sumCost cost π < 1000 then 1 else F
        (optLoop P cfg o cost solve f K K n' (fun _ => none) F' ((sumCost cost π : Int) - F')).map fun l => (K, π) :: l

/-! ## The cost variables -/

section
variable {cost : Nat → Nat} {F : Nat}

theorem leafMax_le {vars : List (Nat × Nat)} {e : Nat × Nat} (he : e ∈ vars) : cost e.2 / F ≤ leafMax cost F vars := by
  unfold leafMax
  refine Nat.div_le_div_right ?_
  have key : ∀ (l : List (Nat × Nat)) (m : Nat), m ≤ l.foldl (fun m e => max m (cost e.2)) m ∧
      ∀ e ∈ l, cost e.2 ≤ l.foldl (fun m e => max m (cost e.2)) m := by
    intro l
    induction l with
    | nil => intro m; simp
    | cons x l ih =>
      intro m
      obtain ⟨h1, h2⟩ := ih (max m (cost x.2))
      simp only [List.foldl_cons]
      refine ⟨by omega, fun e he => ?_⟩
      rcases List.mem_cons.1 he with rfl | he
      · omega
      · exact h2 e he
  exact (key vars 0).2 e he

theorem costVars_le (vs : List (List (Nat × Nat))) : ∀ n, n ≤ (costVars cost F n vs).1 := by
  induction vs with
  | nil => intro n; exact Nat.le_refl _
  | cons v vs ih => intro n; exact (Nat.le_add_right _ _).trans (ih _)

theorem leafCosts_ok {n : Nat} {vars : List (Nat × Nat)} (hv : ∀ e ∈ vars, 0 < e.1 ∧ e.1 ≤ n) :
    ClausesOK (n + leafMax cost F vars) (leafCosts cost F n vars).2 := by
  intro c hc
  simp only [leafCosts, List.mem_flatMap, List.mem_map, List.mem_range] at hc
  obtain ⟨j, hj, e, he, rfl⟩ := hc
  have := hv e he
  intro l hl
  split_ifs at hl <;> simp only [impliesNot, List.mem_cons, List.not_mem_nil, or_false] at hl <;> rcases hl with rfl | rfl <;>
    constructor <;> omega

theorem costVars_ok (vs : List (List (Nat × Nat))) : ∀ n, (∀ v ∈ vs, ∀ e ∈ v, 0 < e.1 ∧ e.1 ≤ n) →
    ClausesOK (costVars cost F n vs).1 (costVars cost F n vs).2.2 ∧
    ∀ x ∈ (costVars cost F n vs).2.1, n < x ∧ x ≤ (costVars cost F n vs).1 := by
  induction vs with
  | nil => intro n _; simp [costVars, ClausesOK]
  | cons v vs ih =>
    intro n h
    obtain ⟨h1, h2⟩ := ih (n + leafMax cost F v) fun v' hv' e he => by
      have := h v' (List.mem_cons_of_mem _ hv') e he
      omega
    have hle := costVars_le (cost := cost) (F := F) vs (n + leafMax cost F v)
    refine ⟨fun c hc => ?_, fun x hx => ?_⟩
    · rcases List.mem_append.1 hc with hc | hc
      · exact (leafCosts_ok (h v List.mem_cons_self) c hc).mono hle
      · exact h1 c hc
    · show n < x ∧ x ≤ (costVars cost F (n + leafMax cost F v) vs).1
      rcases List.mem_append.1 hx with hx | hx
      · simp only [leafCosts, List.mem_map, List.mem_range] at hx
        obtain ⟨c, hc, rfl⟩ := hx
        omega
      · have := h2 x hx
        omega

/-- The cost variables of a selected action are true. -/
theorem leafCosts_sound {n : Nat} {vars : List (Nat × Nat)} (hv : ∀ e ∈ vars, 0 < e.1) {w : Assignment}
    (hw : satAll w (leafCosts cost F n vars).2) {a : Nat} (ha : a ∈ selOf w vars) :
    cost a / F ≤ (leafCosts cost F n vars).1.countP fun x => w x := by
  obtain ⟨x, hx, hwx⟩ := mem_selOf.1 ha
  have hx0 := hv _ hx
  have hm : cost a / F ≤ leafMax cost F vars := leafMax_le hx
  have htrue : ∀ c < cost a / F, w (n + 1 + c) = true := by
    intro c hc
    have := hw ([-(x : Int), ((n + 1 + c : Nat) : Int)]) (by
      simp only [leafCosts, List.mem_flatMap, List.mem_map, List.mem_range]
      exact ⟨c, by omega, (x, a), hx, by rw [if_pos (by show c + 1 ≤ cost a / F; omega)]⟩)
    obtain ⟨l, hl, hlw⟩ := this
    simp only [List.mem_cons, List.not_mem_nil, or_false] at hl
    simp only at hx0
    rcases hl with rfl | rfl
    · rw [lit_neg (by omega), lit_pos (by omega), hwx] at hlw
      simp at hlw
    · rw [lit_pos (by omega)] at hlw
      exact hlw
  unfold leafCosts
  simp only
  rw [List.countP_map]
  obtain ⟨d, hd⟩ := Nat.exists_eq_add_of_le hm
  rw [hd, List.range_add, List.countP_append]
  have : (List.range (cost a / F)).countP ((fun x => w x) ∘ fun c => n + 1 + c) = cost a / F := by
    have h := List.countP_eq_length (p := (fun x => w x) ∘ fun c => n + 1 + c) (l := List.range (cost a / F))
    rw [List.length_range] at h
    exact h.2 fun c hc => htrue c (List.mem_range.1 hc)
  omega

theorem costVars_sound (vs : List (List (Nat × Nat))) : ∀ n, (∀ v ∈ vs, ∀ e ∈ v, 0 < e.1) → ∀ w : Assignment,
    satAll w (costVars cost F n vs).2.2 → (∀ v ∈ vs, (selOf w v).length ≤ 1) →
    sumCost (fun a => cost a / F) (selected w vs) ≤ (costVars cost F n vs).2.1.countP fun x => w x := by
  induction vs with
  | nil => intro n _ w _ _; simp [selected, sumCost]
  | cons v vs ih =>
    intro n h w hw h1
    obtain ⟨hw1, hw2⟩ := satAll_append.1 hw
    have h3 := ih _ (fun v' hv' => h v' (List.mem_cons_of_mem _ hv')) w hw2 fun v' hv' => h1 v' (List.mem_cons_of_mem _ hv')
    have h4 : sumCost (fun a => cost a / F) (selOf w v) ≤ (leafCosts cost F n v).1.countP fun x => w x := by
      have hl := h1 v List.mem_cons_self
      match hs : selOf w v with
      | [] => simp [sumCost]
      | [a] =>
        have := leafCosts_sound (h v List.mem_cons_self) hw1 (a := a) (by rw [hs]; simp)
        simpa [sumCost] using this
      | a :: b :: l => rw [hs] at hl; simp at hl
    show _ ≤ ((leafCosts cost F n v).1 ++ (costVars cost F (n + leafMax cost F v) vs).2.1).countP fun x => w x
    rw [List.countP_append]
    simp only [selected, sumCost, List.flatMap_cons, List.map_append, List.sum_append] at h3 h4 ⊢
    omega

theorem selOf_agree {n : Nat} {vars : List (Nat × Nat)} (hv : ∀ e ∈ vars, e.1 ≤ n) {w v : Assignment} (h : ∀ i ≤ n, w i = v i) :
    selOf w vars = selOf v vars := by
  unfold selOf
  rw [List.filter_congr fun e he => h e.1 (hv e he)]

/-- The cost variables can be chosen such that as many are true as the selected actions cost. -/
theorem leafCosts_complete {n : Nat} {vars : List (Nat × Nat)} (hv : ∀ e ∈ vars, 0 < e.1 ∧ e.1 ≤ n) (v : Assignment)
    (h1 : (selOf v vars).length ≤ 1) :
    ∃ w : Assignment, (∀ i ≤ n, w i = v i) ∧ satAll w (leafCosts cost F n vars).2 ∧
      (leafCosts cost F n vars).1.countP (fun x => w x) = sumCost (fun a => cost a / F) (selOf v vars) := by
  have hcnt : ∀ k m : Nat, k ≤ m → (List.range m).countP (fun c => decide (c < k)) = k := by
    intro k m h
    obtain ⟨d, rfl⟩ := Nat.exists_eq_add_of_le h
    rw [List.range_add, List.countP_append]
    have e1 : (List.range k).countP (fun c => decide (c < k)) = k := by
      have := List.countP_eq_length (p := fun c => decide (c < k)) (l := List.range k)
      rw [List.length_range] at this
      exact this.2 fun c hc => by simpa using hc
    have e2 : (List.map (k + ·) (List.range d)).countP (fun c => decide (c < k)) = 0 := by
      rw [List.countP_eq_zero]
      intro c hc
      obtain ⟨x, -, rfl⟩ := List.mem_map.1 hc
      simp
    omega
  have hle : sumCost (fun a => cost a / F) (selOf v vars) ≤ leafMax cost F vars := by
    match hs : selOf v vars with
    | [] => simp [sumCost]
    | [a] =>
      obtain ⟨x, hx, -⟩ := mem_selOf.1 (show a ∈ selOf v vars by rw [hs]; simp)
      have := leafMax_le (cost := cost) (F := F) hx
      simpa [sumCost] using this
    | a :: b :: l => rw [hs] at h1; simp at h1
  refine ⟨fun i => if i ≤ n then v i else decide (i - (n + 1) < sumCost (fun a => cost a / F) (selOf v vars)), fun i hi => by simp [hi], ?_, ?_⟩
  · intro c hc
    simp only [leafCosts, List.mem_flatMap, List.mem_map, List.mem_range] at hc
    obtain ⟨j, hj, e, he, rfl⟩ := hc
    have he0 := hv e he
    cases hve : v e.1 with
    | false =>
      refine ⟨-(e.1 : Int), by split_ifs <;> simp [impliesNot], ?_⟩
      rw [lit_neg (by omega), lit_pos (by omega)]
      simp [he0.2, hve]
    | true =>
      have hin : e.2 ∈ selOf v vars := mem_selOf.2 ⟨e.1, he, hve⟩
      have hs : selOf v vars = [e.2] := by
        match hs : selOf v vars with
        | [] => rw [hs] at hin; simp at hin
        | [a] => rw [hs] at hin; simp at hin; rw [hin]
        | a :: b :: l => rw [hs] at h1; simp at h1
      have hsum : sumCost (fun a => cost a / F) (selOf v vars) = cost e.2 / F := by rw [hs]; simp [sumCost]
      split_ifs with hc
      · refine ⟨((n + 1 + j : Nat) : Int), by simp, ?_⟩
        rw [lit_pos (by omega), hsum]
        rw [if_neg (by omega), decide_eq_true_eq]
        omega
      · refine ⟨-((n + 1 + j : Nat) : Int), by simp [impliesNot], ?_⟩
        rw [lit_neg (by omega), lit_pos (by omega), hsum]
        rw [if_neg (by omega), Bool.not_eq_true', decide_eq_false_iff_not]
        omega
  · unfold leafCosts
    simp only
    rw [List.countP_map]
    rw [show ((fun x => if x ≤ n then v x else decide (x - (n + 1) < sumCost (fun a => cost a / F) (selOf v vars))) ∘ fun c => n + 1 + c) =
      fun c => decide (c < sumCost (fun a => cost a / F) (selOf v vars)) from funext fun c => by simp; omega]
    exact hcnt _ _ hle

theorem costVars_complete (vs : List (List (Nat × Nat))) : ∀ n, (∀ v ∈ vs, ∀ e ∈ v, 0 < e.1 ∧ e.1 ≤ n) → ∀ v : Assignment,
    (∀ l ∈ vs, (selOf v l).length ≤ 1) →
    ∃ w : Assignment, (∀ i ≤ n, w i = v i) ∧ satAll w (costVars cost F n vs).2.2 ∧
      (costVars cost F n vs).2.1.countP (fun x => w x) = sumCost (fun a => cost a / F) (selected v vs) := by
  induction vs with
  | nil => intro n _ v _; exact ⟨v, fun _ _ => rfl, by simp [costVars, satAll], by simp [costVars, selected, sumCost]⟩
  | cons l vs ih =>
    intro n h v h1
    obtain ⟨w1, k1, k2, k3⟩ := leafCosts_complete (cost := cost) (F := F) (h l List.mem_cons_self) v (h1 l List.mem_cons_self)
    obtain ⟨w2, g1, g2, g3⟩ := ih (n + leafMax cost F l) (fun v' hv' e he => by
        have := h v' (List.mem_cons_of_mem _ hv') e he
        omega) w1 (fun l' hl' => by
        rw [selOf_agree (fun e he => (h l' (List.mem_cons_of_mem _ hl') e he).2) k1]
        exact h1 l' (List.mem_cons_of_mem _ hl'))
    refine ⟨w2, fun i hi => by rw [g1 i (by omega), k1 i hi], satAll_append.2 ⟨?_, g2⟩, ?_⟩
    · exact (satAll_agree g1 (leafCosts_ok (h l List.mem_cons_self))).2 k2
    · show ((leafCosts cost F n l).1 ++ (costVars cost F (n + leafMax cost F l) vs).2.1).countP (fun x => w2 x) = _
      rw [List.countP_append, g3]
      have e1 : (leafCosts cost F n l).1.countP (fun x => w2 x) = (leafCosts cost F n l).1.countP fun x => w1 x := by
        refine List.countP_congr fun x hx => ?_
        simp only [leafCosts, List.mem_map, List.mem_range] at hx
        obtain ⟨c, hc, rfl⟩ := hx
        rw [g1 _ (by omega)]
      have e2 : selected w1 vs = selected v vs := by
        unfold selected
        exact List.flatMap_congr fun l' hl' => selOf_agree (fun e he => (h l' (List.mem_cons_of_mem _ hl') e he).2) k1
      rw [e1, k3, e2]
      simp [selected, sumCost]

/-- The clauses for a bound that is not negative: they can be satisfied iff the rounded costs are within the rounded bound. -/
theorem costFormula_sat {B : Int} (hB : 0 ≤ B) {n : Nat} {vs : List (List (Nat × Nat))}
    (h : ∀ v ∈ vs, ∀ e ∈ v, 0 < e.1 ∧ e.1 ≤ n) (v : Assignment) (h1 : ∀ l ∈ vs, (selOf v l).length ≤ 1) :
    (∃ w : Assignment, (∀ i ≤ n, w i = v i) ∧ satAll w (costFormula cost F B n vs).2) ↔
      (sumCost (fun a => cost a / F) (selected v vs) : Int) ≤ B / F := by
  obtain ⟨b, rfl⟩ := Int.eq_ofNat_of_zero_le hB
  have hdiv : (b : Int).tdiv (F : Int) = ((b / F : Nat) : Int) := by
    rw [Int.ofNat_tdiv]
  have hdiv' : (b : Int) / (F : Int) = ((b / F : Nat) : Int) := (Int.natCast_div b F).symm
  obtain ⟨ho1, ho2⟩ := costVars_ok (cost := cost) (F := F) vs n h
  have hlits : LitsOK (costVars cost F n vs).1 ((costVars cost F n vs).2.1.map fun x : Nat => (x : Int)) := by
    intro l hl
    obtain ⟨x, hx, rfl⟩ := List.mem_map.1 hl
    have := ho2 x hx
    constructor <;> omega
  have hcount : ∀ w : Assignment, ((costVars cost F n vs).2.1.map fun x : Nat => (x : Int)).countP (lit w) =
      (costVars cost F n vs).2.1.countP fun x => w x := by
    intro w
    rw [List.countP_map]
    refine List.countP_congr fun x hx => ?_
    have := ho2 x hx
    show lit w (x : Int) = true ↔ _
    rw [lit_pos (by omega)]
  have hseq : ∀ w : Assignment, (∀ i ≤ n, w i = v i) → selected w vs = selected v vs := by
    intro w hw
    unfold selected
    exact List.flatMap_congr fun l' hl' => selOf_agree (fun e he => (h l' hl' e he).2) hw
  unfold costFormula
  simp only
  rw [hdiv, hdiv', Nat.cast_le]
  constructor
  · rintro ⟨w, hw, hs⟩
    obtain ⟨hs1, hs2⟩ := satAll_append.1 hs
    have hk := (atMostK_sat hlits w).1 ⟨w, fun _ _ => rfl, hs2⟩
    rw [hcount] at hk
    rw [← hseq w hw]
    refine (costVars_sound vs n (fun v' hv' e he => (h v' hv' e he).1) w hs1 fun l hl => ?_).trans hk
    rw [selOf_agree (fun e he => (h l hl e he).2) hw]
    exact h1 l hl
  · intro hle
    obtain ⟨w1, k1, k2, k3⟩ := costVars_complete (cost := cost) (F := F) vs n h v h1
    obtain ⟨w2, g1, g2⟩ := (atMostK_sat hlits w1 (K := b / F)).2 (by rw [hcount, k3]; exact hle)
    refine ⟨w2, fun i hi => by rw [g1 i (hi.trans (costVars_le vs n)), k1 i hi], satAll_append.2 ⟨?_, g2⟩⟩
    exact (satAll_agree g1 ho1).2 k2

/-- For the bound -1 they can always be satisfied. -/
theorem costFormula_neg {n : Nat} {vs : List (List (Nat × Nat))}
    (h : ∀ v ∈ vs, ∀ e ∈ v, 0 < e.1 ∧ e.1 ≤ n) (v : Assignment) (h1 : ∀ l ∈ vs, (selOf v l).length ≤ 1) :
    ∃ w : Assignment, (∀ i ≤ n, w i = v i) ∧ satAll w (costFormula cost 1 (-1) n vs).2 := by
  obtain ⟨ho1, -⟩ := costVars_ok (cost := cost) (F := 1) vs n h
  obtain ⟨w1, k1, k2, k3⟩ := costVars_complete (cost := cost) (F := 1) vs n h v h1
  obtain ⟨w2, g1, g2⟩ := Props.C35_negative_bound_violated (costVars cost 1 n vs).1
    ((costVars cost 1 n vs).2.1.map fun x : Nat => (x : Int)) w1
  refine ⟨w2, fun i hi => by rw [g1 i (hi.trans (costVars_le vs n)), k1 i hi], satAll_append.2 ⟨?_, g2⟩⟩
  exact (satAll_agree g1 ho1).2 k2

end

/-! ## One depth -/

section
variable {P : Problem} {cfg : Cfg} {cost : Nat → Nat} {F : Nat}

/-- What the formula for a depth uses: existing variables; its models select at most one action per leaf. -/
theorem depth_form {o : SatOpts} (hin : SatInput P cfg o) {K : Nat} (hst : ¬ Stuck P cfg K) {n : Nat} {V : VM}
    (hV : VMInv (tree P cfg K) n V) {V' : VM} {n' : Nat} {cs : List Clause}
    (h : depthFormula P o (tree P cfg K) n V = .formula V' n' cs) :
    VMInv (tree P cfg K) n' V' ∧ (MutexAll P o → ClausesOK n' cs) ∧ ∀ w, satAll w cs →
      ∀ l ∈ (tree P cfg K).leaves.map (leafVars V' (tree P cfg K)), (selOf w l).length ≤ 1 := by
  have ht := tree_ok hin.wf hin.conf hst
  obtain ⟨S, h1, h2, -, hc⟩ := depthFormula_cases ht hin.conf.tot hin.meth o hV
  rcases hc with ⟨-, hp⟩ | ⟨n1, V1, l, r, hp, hV1, -⟩
  · rw [hp] at h; simp at h
  · have hf := hp.formula
    rw [h, FRes.formula.injEq] at hf
    obtain ⟨rfl, rfl, rfl⟩ := hf
    obtain ⟨le1, le2, le3⟩ := hp.le
    have hok := treeItems_ok hV1.vars (hV1.one_le ht) hp.tree
    have hpos := leafVars_pos (t := tree P cfg K) hV1.vars
    refine ⟨hV1.toVMInv.mono ((le1.trans le2).trans le3), fun hmu c hc => ?_, fun w hw l' hl' => ?_⟩
    · rcases List.mem_append.1 hc with hc | hc
      · exact (emit_ok hin.bits l n1 hok c hc).mono (le2.trans le3)
      · rcases List.mem_append.1 hc with hc | hc
        · exact LitsOK.mono (stateFormula_vars hin.wf hp.state
            (fun l hl e he => ⟨(hpos l hl e he).1, (hpos l hl e he).2.trans le1⟩) c hc) le3
        · obtain ⟨-, -, hr1, hr2⟩ := stateFormula_some hp.state
          have hbase : ∀ b ∈ r.2.1, 0 < b ∧ b + P.numFacts ≤ r.1 + 1 := by
            intro b hb'
            rw [hr2] at hb'
            obtain ⟨τ, hτ, rfl⟩ := List.mem_map.1 hb'
            rw [List.mem_range] at hτ
            refine ⟨stateBase_pos, ?_⟩
            rw [hr1]
            unfold stateBase
            have h1 : (τ + 1) * max 1 P.numFacts ≤ (blocksOf P o (tree P cfg K) S).length * max 1 P.numFacts := Nat.mul_le_mul_right _ hτ
            have h2 : P.numFacts ≤ max 1 P.numFacts := Nat.le_max_right _ _
            rw [Nat.add_mul] at h1 ⊢
            omega
          have hm : MutexOK P o [] := by
            intro G B ho
            obtain ⟨hG, hB, hh⟩ := hmu G B ho
            refine ⟨hG, hB, fun π' s hpre hex => hh π' s ?_ hex⟩
            rw [List.prefix_nil.1 hpre]
            simp
          exact emit_ok hin.bits _ r.1 (mutexAll_ok hm hbase) c hc
    · rw [satAll_append] at hw
      obtain ⟨l'', hl'', hsem⟩ := treeItems_holds ht hin.conf.tot hin.meth (fun q => (h2 q).weak) hV1 hp.root
      rw [hp.tree] at hl''
      obtain rfl := Option.some.inj hl''
      have hit : ∀ it ∈ l, it.Holds w := (emit_sat hin.bits l n1 hok w).1 ⟨w, fun _ _ => rfl, hw.1⟩
      have hs := decode_shows ht hin.conf.tot hin.meth h2 hV1 ((hsem w).1 hit)
      obtain ⟨p, hp', rfl⟩ := List.mem_map.1 hl'
      rw [hs.leaf p hp']
      exact actAt_length _ _ _

/-- The costs of a plan that count for a factor and a bound.  The bound -1 excludes nothing. -/
def Within (cost : Nat → Nat) (F : Nat) (B : Int) (π : List Nat) : Prop :=
  0 ≤ B → (sumCost (fun a => cost a / F) π : Int) ≤ B / F

/-- One depth in cost mode. -/
theorem costDepth_spec {o : SatOpts} (hin : SatInput P cfg o) {K : Nat} (hst : ¬ Stuck P cfg K) {n : Nat} {V : VM}
    (hV : VMInv (tree P cfg K) n V) (B : Int) :
    (costDepth P o cost F B (tree P cfg K) n V = .pruned ∧ ¬ ∃ π, SolutionOfHeight P K π ∧ ∀ a ∈ π, NoClash P a) ∨
    ∃ V' n' cs, costDepth P o cost F B (tree P cfg K) n V = .formula V' n' cs ∧ VMInv (tree P cfg K) n' V' ∧
      (∀ w, satAll w cs → SolutionOfHeight P K (printed (tree P cfg K) V' w) ∧
        (∀ a ∈ printed (tree P cfg K) V' w, NoClash P a) ∧ Within cost F B (printed (tree P cfg K) V' w)) ∧
      (MutexAll P o → ∀ π, SolutionOfHeight P K π → (∀ a ∈ π, NoClash P a) → Within cost F B π → (0 ≤ B ∨ F = 1 ∧ B = -1) →
        ∃ w, satAll w cs ∧ printed (tree P cfg K) V' w = π) := by
  rcases depth_spec hin hst hV with ⟨h, hno⟩ | ⟨V', n', cs, h, hV', hs, hc⟩
  · exact .inl ⟨by unfold costDepth; rw [h], hno⟩
  · right
    obtain ⟨-, hcl, hone⟩ := depth_form hin hst hV h
    have hpos := leafVars_pos (t := tree P cfg K) hV'.vars
    refine ⟨V', _, _, by unfold costDepth; rw [h], hV'.mono ?_, fun w hw => ?_, fun hmu π hπ hna hB hB' => ?_⟩
    · unfold costFormula atMostK
      simp only
      have := costVars_le (cost := cost) (F := F) ((tree P cfg K).leaves.map (leafVars V' (tree P cfg K))) n'
      unfold kBase
      omega
    · obtain ⟨hw1, hw2⟩ := satAll_append.1 hw
      refine ⟨(hs w hw1).1, (hs w hw1).2, fun hB => ?_⟩
      rw [← selected_printed]
      exact (costFormula_sat hB hpos w (hone w hw1)).1 ⟨w, fun _ _ => rfl, hw2⟩
    · obtain ⟨w, hw, hwp⟩ := hc hmu π hπ hna
      have hex : ∃ w' : Assignment, (∀ i ≤ n', w' i = w i) ∧ satAll w' (costFormula cost F B n'
          ((tree P cfg K).leaves.map (leafVars V' (tree P cfg K)))).2 := by
        rcases hB' with h0 | ⟨rfl, rfl⟩
        · refine (costFormula_sat h0 hpos w (hone w hw)).2 ?_
          rw [selected_printed, hwp]
          exact hB h0
        · exact costFormula_neg hpos w (hone w hw)
      obtain ⟨w', hw', hs'⟩ := hex
      refine ⟨w', satAll_append.2 ⟨(satAll_agree hw' (hcl hmu)).2 hw, hs'⟩, ?_⟩
      rw [← hwp, ← selected_printed, ← selected_printed]
      unfold selected
      exact List.flatMap_congr fun l hl => selOf_agree (fun e he => (hpos l hl e he).2) hw'

/-! ## The loop -/

theorem within_one {B : Int} {π : List Nat} : Within cost 1 B π ↔ (0 ≤ B → (sumCost cost π : Int) ≤ B) := by
  unfold Within
  simp only [Nat.div_one, Nat.cast_one, Int.ediv_one]

variable {o : SatOpts} {solve : List Clause → Option Assignment}

/-- A step of the loop: there is no plan within the bound at this depth, or a plan is printed. -/
theorem optLoop_step (hin : SatInput P cfg o) (hst : ∀ K, ¬ Stuck P cfg K) (hso : ∀ cs w, solve cs = some w → satAll w cs)
    {K L n : Nat} (hL : L ≤ K) {V : VM} (hV : VMInv (tree P cfg K) n V) (F : Nat) (B : Int) :
    (∃ n' V', VMInv (tree P cfg (K + 1)) n' V' ∧
      (∀ f, optLoop P cfg o cost solve (f + 1) K L n V F B = optLoop P cfg o cost solve f (K + 1) L n' V' F B) ∧
      (MutexAll P o → SolverOK solve → (0 ≤ B ∨ F = 1 ∧ B = -1) →
        ¬ ∃ π, SolutionOfHeight P K π ∧ (∀ a ∈ π, NoClash P a) ∧ Within cost F B π)) ∨
    ∃ n' π, SolutionOfHeight P K π ∧ (∀ a ∈ π, NoClash P a) ∧ Within cost F B π ∧
      ∀ f, optLoop P cfg o cost solve (f + 1) K L n V F B =
        (optLoop P cfg o cost solve f K K n' (fun _ => none) (if sumCost cost π < 1000 then 1 else F)
          ((sumCost cost π : Int) - (if sumCost cost π < 1000 then 1 else F : Nat))).map fun l => (K, π) :: l := by
  have hdead : ¬ K + 1 + 15 < L := by omega
  rcases costDepth_spec (cost := cost) (F := F) hin (hst K) hV B with ⟨h, hno⟩ | ⟨V', n', cs, h, hV', hs, hc⟩
  · left
    refine ⟨n, V, hV.next, fun f => ?_, fun _ _ _ => ?_⟩
    · rw [optLoop, h]
      simp only
      rw [if_neg hdead]
    · rintro ⟨π, h1, h2, -⟩
      exact hno ⟨π, h1, h2⟩
  · cases hsv : solve cs with
    | none =>
      left
      refine ⟨n', V', hV'.next, fun f => ?_, fun hmu hok hB => ?_⟩
      · rw [optLoop, h]
        simp only [hsv]
        rw [if_neg hdead]
      · rintro ⟨π, h1, h2, h3⟩
        obtain ⟨w, hw, -⟩ := hc hmu π h1 h2 h3 hB
        exact hok.unsat cs hsv ⟨w, hw⟩
    | some w =>
      right
      obtain ⟨h1, h2, h3⟩ := hs w (hso cs w hsv)
      refine ⟨n', printed (tree P cfg K) V' w, h1, h2, h3, fun f => ?_⟩
      rw [optLoop, h]
      simp only [hsv]

/-- The relation of consecutive plans. -/
def Better (cost : Nat → Nat) (x y : Nat × List Nat) : Prop :=
  x.1 ≤ y.1 ∧ (0 < sumCost cost x.2 → sumCost cost x.2 < 1000 → sumCost cost y.2 < sumCost cost x.2)

theorem optLoop_sound (hin : SatInput P cfg o) (hst : ∀ K, ¬ Stuck P cfg K) (hso : ∀ cs w, solve cs = some w → satAll w cs) :
    ∀ (f K L n : Nat) (V : VM) (F : Nat) (B : Int), L ≤ K → VMInv (tree P cfg K) n V →
    ∃ l, optLoop P cfg o cost solve f K L n V F B = some l ∧
      (∀ x ∈ l, SolutionOfHeight P x.1 x.2 ∧ (∀ a ∈ x.2, NoClash P a)) ∧
      l.IsChain (Better cost) ∧ ∀ x ∈ l.head?, K ≤ x.1 ∧ Within cost F B x.2 := by
  intro f
  induction f with
  | zero => intro K L n V F B _ _; exact ⟨[], rfl, by simp, by simp, by simp⟩
  | succ f ih =>
    intro K L n V F B hL hV
    rcases optLoop_step (cost := cost) hin hst hso hL hV F B with ⟨n', V', h1, h2, -⟩ | ⟨n', π, h1, h2, h3, h4⟩
    · obtain ⟨l, k1, k2, k3, k4⟩ := ih (K + 1) L n' V' F B (by omega) h1
      exact ⟨l, by rw [h2, k1], k2, k3, fun x hx => ⟨by have := (k4 x hx).1; omega, (k4 x hx).2⟩⟩
    · obtain ⟨l, k1, k2, k3, k4⟩ := ih K K n' (fun _ => none) (if sumCost cost π < 1000 then 1 else F)
        ((sumCost cost π : Int) - (if sumCost cost π < 1000 then 1 else F : Nat)) (Nat.le_refl _) (vmInv_empty _ _)
      refine ⟨(K, π) :: l, by rw [h4, k1]; rfl, ?_, ?_, ?_⟩
      · intro x hx
        rcases List.mem_cons.1 hx with rfl | hx
        · exact ⟨h1, h2⟩
        · exact k2 x hx
      · rw [List.isChain_cons]
        refine ⟨fun x hx => ?_, k3⟩
        obtain ⟨g1, g2⟩ := k4 x hx
        refine ⟨g1, fun hpos hlt => ?_⟩
        simp only at hpos hlt ⊢
        rw [if_pos hlt, within_one] at g2
        have := g2 (by push_cast; omega)
        push_cast at this
        omega
      · intro x hx
        simp only [List.head?_cons, Option.mem_some_iff] at hx
        subst hx
        exact ⟨Nat.le_refl _, h3⟩

/-- If there is a plan within the bound, one is printed. -/
theorem optLoop_finds (hin : SatInput P cfg o) (hst : ∀ K, ¬ Stuck P cfg K) (hmu : MutexAll P o) (hso : SolverOK solve)
    {F : Nat} {B : Int} (hB : 0 ≤ B ∨ F = 1 ∧ B = -1) {Ks : Nat} {πs : List Nat}
    (hs : ∀ k ≥ Ks, SolutionOfHeight P k πs) (hna : ∀ a ∈ πs, NoClash P a) (hw : Within cost F B πs) :
    ∀ (d K L n : Nat) (V : VM), Ks ≤ K + d → L ≤ K → VMInv (tree P cfg K) n V →
    ∃ s K' n' π, SolutionOfHeight P K' π ∧ (∀ a ∈ π, NoClash P a) ∧ Within cost F B π ∧
      ∀ f, optLoop P cfg o cost solve (f + s) K L n V F B =
        (optLoop P cfg o cost solve f K' K' n' (fun _ => none) (if sumCost cost π < 1000 then 1 else F)
          ((sumCost cost π : Int) - (if sumCost cost π < 1000 then 1 else F : Nat))).map fun l => (K', π) :: l := by
  intro d
  induction d with
  | zero =>
    intro K L n V hd hL hV
    rcases optLoop_step (cost := cost) hin hst hso.sat hL hV F B with ⟨n', V', h1, h2, h3⟩ | ⟨n', π, h1, h2, h3, h4⟩
    · exact absurd ⟨πs, hs K (by omega), hna, hw⟩ (h3 hmu hso hB)
    · exact ⟨1, K, n', π, h1, h2, h3, h4⟩
  | succ d ih =>
    intro K L n V hd hL hV
    rcases optLoop_step (cost := cost) hin hst hso.sat hL hV F B with ⟨n', V', h1, h2, h3⟩ | ⟨n', π, h1, h2, h3, h4⟩
    · obtain ⟨s, K', n'', π, g1, g2, g3, g4⟩ := ih (K + 1) L n' V' (by omega) (by omega) h1
      refine ⟨s + 1, K', n'', π, g1, g2, g3, fun f => ?_⟩
      rw [← Nat.add_assoc, h2, g4]
    · exact ⟨1, K, n', π, h1, h2, h3, h4⟩

/-- With factor 1 the last plan that is printed has the least costs of all plans; if no plan is within the bound, none is
printed. -/
theorem optLoop_optimal (hin : SatInput P cfg o) (hst : ∀ K, ¬ Stuck P cfg K) (hmu : MutexAll P o) (hso : SolverOK solve)
    {πs : List Nat} (hs : IsSolution P πs) (hna : ∀ a ∈ πs, NoClash P a) (hpos : 0 < sumCost cost πs)
    (hmin : ∀ π, IsSolution P π → (∀ a ∈ π, NoClash P a) → sumCost cost πs ≤ sumCost cost π) :
    ∀ (b K L n : Nat) (V : VM), L ≤ K → VMInv (tree P cfg K) n V →
    ∃ N, ∀ f ≥ N, ∃ l, optLoop P cfg o cost solve f K L n V 1 ((sumCost cost πs : Int) + b - 1) = some l ∧
      (b = 0 → l = []) ∧ (b ≠ 0 → ∃ x, l.getLast? = some x ∧ IsSolution P x.2 ∧ sumCost cost x.2 = sumCost cost πs) := by
  intro b
  induction b using Nat.strong_induction_on with
  | _ b ih =>
    intro K L n V hL hV
    by_cases hb : b = 0
    · subst hb
      refine ⟨0, fun f _ => ?_⟩
      obtain ⟨l, h1, h2, -, h4⟩ := optLoop_sound (cost := cost) hin hst hso.sat f K L n V 1 ((sumCost cost πs : Int) + (0 : Nat) - 1) hL hV
      refine ⟨l, h1, fun _ => ?_, fun h => absurd rfl h⟩
      cases l with
      | nil => rfl
      | cons x l =>
        exfalso
        have hx := (h4 x (by simp)).2
        rw [within_one] at hx
        have h5 := hx (by omega)
        have h6 := h2 x List.mem_cons_self
        have := hmin x.2 h6.1.isSolution h6.2
        omega
    · obtain ⟨Ks, hKs⟩ := hs.height
      obtain ⟨s, K', n', π, g1, g2, g3, g4⟩ := optLoop_finds (cost := cost) hin hst hmu hso (F := 1)
        (B := (sumCost cost πs : Int) + b - 1) (.inl (by omega)) hKs hna (within_one.2 fun _ => by omega) Ks K L n V (by omega) hL hV
      have hle : sumCost cost π ≤ sumCost cost πs + b - 1 := by
        have := within_one.1 g3 (by omega)
        omega
      have hge := hmin π g1.isSolution g2
      have hbb : ((sumCost cost π : Int) - ((if sumCost cost π < 1000 then 1 else 1 : Nat) : Int)) =
          (sumCost cost πs : Int) + ((sumCost cost π - sumCost cost πs : Nat) : Int) - 1 := by
        rw [ite_self]
        push_cast [Nat.cast_sub hge]
        omega
      obtain ⟨N, hN⟩ := ih (sumCost cost π - sumCost cost πs) (by omega) K' K' n' (fun _ => none) (Nat.le_refl _) (vmInv_empty _ _)
      refine ⟨N + s, fun f hf => ?_⟩
      obtain ⟨f', rfl⟩ : ∃ f', f = f' + s := ⟨f - s, by omega⟩
      obtain ⟨l, k1, k2, k3⟩ := hN f' (by omega)
      refine ⟨(K', π) :: l, ?_, fun h => absurd h hb, fun _ => ?_⟩
      · rw [g4 f', hbb, ite_self, k1]
        rfl
      · by_cases h0 : sumCost cost π - sumCost cost πs = 0
        · refine ⟨(K', π), by rw [k2 h0]; rfl, g1.isSolution, ?_⟩
          show sumCost cost π = sumCost cost πs
          omega
        · obtain ⟨x, hx, hx'⟩ := k3 h0
          refine ⟨x, ?_, hx'⟩
          rw [List.getLast?_cons, hx]
          rfl

end

end Verif.Pdt
