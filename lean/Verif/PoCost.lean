import Verif.SatCost
import Verif.PoLoop

/-! # Model of the optimisation of plan costs by the SAT planner (src/sat/sat_planner.cpp 483-512, 707-777), partially ordered problems

The costs are a parameter, as in `SatCost`.  Overflow of the sums is not modelled. -/

namespace Verif.Pdt

open Verif.Htn Verif.Sog Verif.Sat Verif.Inv Relation

/-- `createFormulaForDepth` in cost mode: cost variables for the actions at the positions (sat_planner.cpp 447-453, 483-512). -/
def costDepthPO (P : Problem) (cfg : Cfg) (o : SatOpts) (iter : List Nat → List Nat) (cost : Nat → Nat) (F : Nat) (B : Int) (t : T) (n : Nat)
    (V : VM) : FResPO :=
  match depthFormulaPO P cfg o iter t n V with
  | .undef => .undef
  | .formula V' n' cs M =>
    let r := costFormula cost F B n' M.vars
    .formula V' r.1 (cs ++ r.2) M

/-- `optimise_with_sat_planner_linear_bound_increase` (sat_planner.cpp 707-777): the printed plans with their depths, up to
a number of steps; `none` if a formula is not defined.  `L` is `lastImprovedDepth`.  After a plan the tree is built anew. -/
def optLoopPO (P : Problem) (cfg : Cfg) (o : SatOpts) (iter : List Nat → List Nat) (cost : Nat → Nat)
    (solve : List Clause → Option Assignment) : (fuel K L n : Nat) → VM → (F : Nat) → (B : Int) → Option (List (Nat × List Nat))
  | 0, _, _, _, _, _, _ => some []
  | f + 1, K, L, n, V, F, B =>
    match costDepthPO P cfg o iter cost F B (tree P cfg K) n V with
    | .undef => none
    | .formula V' n' cs M =>
      match solve cs with
      | none =>
        if K + 1 + 15 < L then optLoopPO P cfg o iter cost solve f L L n' V' 1 (B + 999)
        else optLoopPO P cfg o iter cost solve f (K + 1) L n' V' F B
      | some w =>
        let π := printedPO (tree P cfg K) V' M w
        let F' := if sumCost cost π < 1000 then 1 else F
        (optLoopPO P cfg o iter cost solve f K K n' (fun _ => none) F' ((sumCost cost π : Int) - F')).map fun l => (K, π) :: l

/-! ## The variables of the formula -/

section
variable {M : MData}

theorem litsOK_implies {n i j : Nat} (hi : 0 < i ∧ i ≤ n) (hj : 0 < j ∧ j ≤ n) : LitsOK n (implies i j) ∧ LitsOK n (impliesNot i j) := by
  constructor <;> intro l hl <;> simp only [implies, impliesNot, List.mem_cons, List.not_mem_nil, or_false] at hl <;>
    rcases hl with rfl | rfl <;> constructor <;> omega

theorem orderClauses_ok {es : List (Path × Path)} {g : Nat} (hg : M.nm + M.vs.length * M.steps ≤ g)
    (hes : ∀ e ∈ es, e.1 ∈ M.vs ∧ e.2 ∈ M.vs) : ClausesOK (g + M.vs.length * M.steps) (orderClauses M es g) := by
  have hin := edges_in hes
  have hm : ∀ l < M.vs.length, ∀ p < M.steps, 0 < M.mv l p ∧ M.mv l p ≤ g + M.vs.length * M.steps := fun l hl p hp =>
    ⟨mv_pos _ _, by have := mv_le hl hp; omega⟩
  have hf : ∀ l < M.vs.length, ∀ p < M.steps, 0 < M.fv g l p ∧ M.fv g l p ≤ g + M.vs.length * M.steps := fun l hl p hp =>
    ⟨fv_pos _ _ _, fv_le hl hp⟩
  intro c hc
  unfold orderClauses at hc
  simp only [List.mem_append, List.mem_flatMap, List.mem_map, List.mem_filter, List.mem_range, mem_succs, decide_eq_true_eq] at hc
  rcases hc with ((⟨l, hl, k, hk, p, ⟨hp, h0⟩, rfl⟩ | ⟨l, hl, k, hk, p, hp, rfl⟩) | ⟨l, hl, p, ⟨hp, h0⟩, rfl⟩) | ⟨l, hl, p, hp, rfl⟩
  · exact (litsOK_implies (hm l hl p hp) (hf k (hin l k hk).2 (p - 1) (by omega))).1
  · exact (litsOK_implies (hf l hl p hp) (hf k (hin l k hk).2 p hp)).1
  · exact (litsOK_implies (hf l hl p hp) (hf l hl (p - 1) (by omega))).1
  · exact (litsOK_implies (hf l hl p hp) (hm l hl p hp)).2

end

section
variable {P : Problem} {cfg : Cfg} {o : SatOpts} {iter : List Nat → List Nat} {K : Nat} {n : Nat} {V : VM}

/-- The clauses use existing variables. -/
theorem clausesPO_ok (hin : PoInput P cfg o iter) (hst : ¬ Stuck P cfg K) (heff : AllEff P) (hmu : MutexAll P o) {n1 : Nat} {V' : VM} {l s M}
    (hp : PartsPO P cfg o iter (tree P cfg K) n V n1 V' l s M) (hV : VMFull P (tree P cfg K) Flags.empty n1 V') :
    ClausesOK (clausesPO P cfg o (tree P cfg K) n1 V' l s M).1 (clausesPO P cfg o (tree P cfg K) n1 V' l s M).2 := by
  have ht := tree_ok hin.wf hin.conf hst
  have hM := parts_mok hin hst heff hp
  obtain ⟨le1, le2, le3, le4, le5⟩ := parts_le hp
  have hn1 : M.nm + M.vs.length * M.steps ≤ M.n1 := by unfold MData.n1; omega
  have hok : ∀ it ∈ l ++ (noAbs (tree P cfg K) V').map .cl, it.OK n1 := by
    intro it h
    rcases List.mem_append.1 h with h | h
    · exact treeItems_ok hV.vars (hV.one_le ht) hp.tree it h
    · obtain ⟨c, hc, rfl⟩ := List.mem_map.1 h
      exact noAbs_ok hV.vars c hc
  have hacts : ∀ l < M.vs.length, ∀ e ∈ leafVars V' (tree P cfg K) (M.leaf l), e.2 ∈ M.acts := fun l hl e he =>
    (hM.mem e.2).2 ⟨_, leaf_mem hl, mem_prims_of_var he⟩
  obtain ⟨-, -, hr1, hr2⟩ := stateFormula_some hp.state
  have hnb : ((List.range M.vars.length).map fun l => [l]).length = M.steps := by rw [List.length_map, List.length_range, vars_length]
  rw [hnb] at hr1 hr2
  have hbase : ∀ b ∈ s.2.1, 0 < b ∧ b + P.numFacts ≤ M.nm + 1 := by
    intro b hb'
    rw [hr2] at hb'
    obtain ⟨τ, hτ, rfl⟩ := List.mem_map.1 hb'
    rw [List.mem_range] at hτ
    refine ⟨stateBase_pos, ?_⟩
    rw [hp.nm, hr1]
    unfold stateBase
    have h1 : (τ + 1) * max 1 P.numFacts ≤ M.steps * max 1 P.numFacts := Nat.mul_le_mul_right _ hτ
    have h2 : P.numFacts ≤ max 1 P.numFacts := Nat.le_max_right _ _
    rw [Nat.add_mul] at h1 ⊢
    omega
  have hxok : ∀ it ∈ mutexPO P o s.2.1, it.OK ((emit o.bits M.n1 (matchItems P (tree P cfg K) V' M)).1 + M.vs.length * M.steps) := by
    unfold mutexPO
    cases ho : o.mutex with
    | none => intro it h; simp at h
    | some y =>
      obtain ⟨G, B⟩ := y
      obtain ⟨hG, hB, -⟩ := hmu G B ho
      intro it h
      obtain ⟨b, hb', h⟩ := List.mem_flatMap.1 h
      have := hbase b hb'
      exact mutexItems_ok hG hB (fun _ => by simp) this.1 (by omega) it h
  have le6 : (emit o.bits M.n1 (matchItems P (tree P cfg K) V' M)).1 + M.vs.length * M.steps ≤
      (clausesPO P cfg o (tree P cfg K) n1 V' l s M).1 := by unfold clausesPO; exact emit_le _ _ _
  intro c hc
  unfold clausesPO at hc
  simp only [List.mem_append] at hc
  rcases hc with hc | hc | hc | hc | hc
  · have h := emit_ok hin.bits _ n1 hok c hc
    rw [← hp.np] at h
    exact h.mono (by omega)
  · have h := stateFormula_vars hin.wf hp.state vars_rng c hc
    rw [← hp.nm] at h
    exact LitsOK.mono h (by omega)
  · exact (emit_ok hin.bits _ M.n1 (matchItems_ok (P := P) hV.vars le1 le2 hacts) c hc).mono le5
  · refine (orderClauses_ok (by omega) ?_ c hc).mono le6
    rw [hM.vs]
    exact sog_edges hin hst
  · exact emit_ok hin.bits _ _ hxok c hc

/-- What the formula for a depth uses: existing variables; its models select at most one action per position, and these
are printed. -/
theorem depthPO_form (hin : PoInput P cfg o iter) (hst : ¬ Stuck P cfg K) (heff : AllEff P) (hV : VMInv (tree P cfg K) n V) {V' : VM} {n' : Nat}
    {cs : List Clause} {M : MData} (h : depthFormulaPO P cfg o iter (tree P cfg K) n V = .formula V' n' cs M) :
    (MutexAll P o → ClausesOK n' cs) ∧ (∀ l ∈ M.vars, ∀ e ∈ l, 0 < e.1 ∧ e.1 ≤ n') ∧ ∀ w, satAll w cs →
      (∀ l ∈ M.vars, (selOf w l).length ≤ 1) ∧ printedPO (tree P cfg K) V' M w = selected w M.vars := by
  have ht := tree_ok hin.wf hin.conf hst
  obtain ⟨n1, l, s, hp, hcs⟩ := PartsPO.of_formula h
  obtain ⟨hV1, -, -⟩ := assignVars_spec ht (localW_empty ht) hV
  rw [hp.vars] at hV1
  obtain ⟨rfl, rfl⟩ : n' = (clausesPO P cfg o (tree P cfg K) n1 V' l s M).1 ∧ cs = (clausesPO P cfg o (tree P cfg K) n1 V' l s M).2 :=
    ⟨congrArg Prod.fst hcs, congrArg Prod.snd hcs⟩
  obtain ⟨le1, le2, le3, le4, le5⟩ := parts_le hp
  have hM := parts_mok hin hst heff hp
  refine ⟨fun hmu => clausesPO_ok hin hst heff hmu hp hV1, fun l hl e he => ?_, fun w hw => ?_⟩
  · have := vars_rng l hl e he
    exact ⟨this.1, by omega⟩
  · obtain ⟨-, hleaf, -, hms, -⟩ := formulaPO_sem hin hst hp hV1 hM hw
    have hleaf' : ∀ l < M.vs.length, selOf w (leafVars V' (tree P cfg K) (M.leaf l)) =
        actAt (tree P cfg K) (decode P (tree P cfg K) V' w) (M.leaf l) := fun l hl => hleaf _ (by rw [← hM.vs]; exact leaf_mem hl)
    refine ⟨fun l hl => ?_, (seqOf_acts hM hms hleaf').2⟩
    obtain ⟨p, hp', rfl⟩ := List.mem_map.1 hl
    rw [List.mem_range] at hp'
    have hun := selOf_unit (w := w) hp'
    unfold blockActs at hun
    have hg : M.vars[p]? = some (M.acts.map fun a => (M.pv p a, a)) := by
      unfold MData.vars
      rw [List.getElem?_map, List.getElem?_range hp']
      rfl
    simp only [List.flatMap_cons, List.flatMap_nil, List.append_nil, hg, Option.getD_some] at hun
    rw [hun]
    rcases position hM hms hleaf' hp' with ⟨-, h⟩ | ⟨_, a, -, -, h⟩ <;> rw [h] <;> simp

/-! ## One depth -/

variable {cost : Nat → Nat} {F : Nat}

/-- One depth in cost mode. -/
theorem costDepthPO_spec (hin : PoInput P cfg o iter) (hst : ¬ Stuck P cfg K) (heff : AllEff P) (hac : AcyclicAll P cfg K)
    (hV : VMInv (tree P cfg K) n V) (B : Int) {V' : VM} {n' : Nat} {cs : List Clause} {M : MData}
    (h : costDepthPO P cfg o iter cost F B (tree P cfg K) n V = .formula V' n' cs M) :
    VMInv (tree P cfg K) n' V' ∧
    (∀ w, satAll w cs → SolutionOfHeight P K (printedPO (tree P cfg K) V' M w) ∧
      (∀ a ∈ printedPO (tree P cfg K) V' M w, NoClash P a) ∧ Within cost F B (printedPO (tree P cfg K) V' M w)) ∧
    (ExactAll P cfg K → MutexAll P o → ∀ π, SolutionOfHeight P K π → (∀ a ∈ π, NoClash P a) → Within cost F B π →
      (0 ≤ B ∨ F = 1 ∧ B = -1) → ∃ w, satAll w cs ∧ printedPO (tree P cfg K) V' M w = π) := by
  unfold costDepthPO at h
  cases hd : depthFormulaPO P cfg o iter (tree P cfg K) n V with
  | undef => rw [hd] at h; simp at h
  | formula V1 n1 cs1 M1 =>
    rw [hd] at h
    simp only [FResPO.formula.injEq] at h
    obtain ⟨rfl, rfl, rfl, rfl⟩ := h
    obtain ⟨hV', hs, hc⟩ := depthPO_formula hin hst heff hac hV hd
    obtain ⟨hcl, hpos, hone⟩ := depthPO_form hin hst heff hV hd
    refine ⟨hV'.mono ?_, fun w hw => ?_, fun hexa hmu π hπ hna hB hB' => ?_⟩
    · unfold costFormula atMostK
      simp only
      have := costVars_le (cost := cost) (F := F) M1.vars n1
      unfold kBase
      omega
    · obtain ⟨hw1, hw2⟩ := satAll_append.1 hw
      refine ⟨(hs w hw1).1, (hs w hw1).2, fun hB => ?_⟩
      rw [(hone w hw1).2]
      exact (costFormula_sat hB hpos w (hone w hw1).1).1 ⟨w, fun _ _ => rfl, hw2⟩
    · obtain ⟨w, hw, hwp⟩ := hc hexa hmu π hπ hna
      have hex : ∃ w' : Assignment, (∀ i ≤ n1, w' i = w i) ∧ satAll w' (costFormula cost F B n1 M1.vars).2 := by
        rcases hB' with h0 | ⟨rfl, rfl⟩
        · refine (costFormula_sat h0 hpos w (hone w hw).1).2 ?_
          rw [← (hone w hw).2, hwp]
          exact hB h0
        · exact costFormula_neg hpos w (hone w hw).1
      obtain ⟨w', hw', hs'⟩ := hex
      have hw1 := (satAll_agree hw' (hcl hmu)).2 hw
      refine ⟨w', satAll_append.2 ⟨hw1, hs'⟩, ?_⟩
      rw [← hwp, (hone w hw).2, (hone w' hw1).2]
      unfold selected
      exact List.flatMap_congr fun l hl => selOf_agree (fun e he => (hpos l hl e he).2) hw'

theorem costDepthPO_exists (hin : PoInput P cfg o iter) (hst : ¬ Stuck P cfg K) (heff : AllEff P) (hsz : (tree P cfg K).leaves.length ≤ 65536)
    (hV : VMInv (tree P cfg K) n V) (B : Int) :
    ∃ V' n' cs M, costDepthPO P cfg o iter cost F B (tree P cfg K) n V = .formula V' n' cs M := by
  obtain ⟨n1, V', l, s, M, hp⟩ := partsPO_exist hin hst heff hsz hV
  have hd := hp.formula
  exact ⟨V', _, _, M, by unfold costDepthPO; rw [hd]⟩

/-! ## The loop -/

variable {solve : List Clause → Option Assignment}

/-- A step of the loop: there is no plan within the bound at this depth, or a plan is printed. -/
theorem optLoopPO_step (hin : PoInput P cfg o iter) (hst : ∀ K, ¬ Stuck P cfg K) (heff : AllEff P) (hac : ∀ K, AcyclicAll P cfg K)
    (hso : ∀ cs w, solve cs = some w → satAll w cs) {K L n : Nat} (hsz : (tree P cfg K).leaves.length ≤ 65536) (hL : L ≤ K) {V : VM}
    (hV : VMInv (tree P cfg K) n V) (F : Nat) (B : Int) :
    (∃ n' V', VMInv (tree P cfg (K + 1)) n' V' ∧
      (∀ f, optLoopPO P cfg o iter cost solve (f + 1) K L n V F B = optLoopPO P cfg o iter cost solve f (K + 1) L n' V' F B) ∧
      (ExactAll P cfg K → MutexAll P o → SolverOK solve → (0 ≤ B ∨ F = 1 ∧ B = -1) →
        ¬ ∃ π, SolutionOfHeight P K π ∧ (∀ a ∈ π, NoClash P a) ∧ Within cost F B π)) ∨
    ∃ n' π, SolutionOfHeight P K π ∧ (∀ a ∈ π, NoClash P a) ∧ Within cost F B π ∧
      ∀ f, optLoopPO P cfg o iter cost solve (f + 1) K L n V F B =
        (optLoopPO P cfg o iter cost solve f K K n' (fun _ => none) (if sumCost cost π < 1000 then 1 else F)
          ((sumCost cost π : Int) - (if sumCost cost π < 1000 then 1 else F : Nat))).map fun l => (K, π) :: l := by
  have hdead : ¬ K + 1 + 15 < L := by omega
  obtain ⟨V', n', cs, M, h⟩ := costDepthPO_exists (cost := cost) (F := F) hin (hst K) heff hsz hV B
  obtain ⟨hV', hs, hc⟩ := costDepthPO_spec hin (hst K) heff (hac K) hV B h
  cases hsv : solve cs with
  | none =>
    left
    refine ⟨n', V', hV'.next, fun f => ?_, fun hexa hmu hok hB => ?_⟩
    · rw [optLoopPO, h]
      simp only [hsv]
      rw [if_neg hdead]
    · rintro ⟨π, h1, h2, h3⟩
      obtain ⟨w, hw, -⟩ := hc hexa hmu π h1 h2 h3 hB
      exact hok.unsat cs hsv ⟨w, hw⟩
  | some w =>
    right
    obtain ⟨h1, h2, h3⟩ := hs w (hso cs w hsv)
    refine ⟨n', printedPO (tree P cfg K) V' M w, h1, h2, h3, fun f => ?_⟩
    rw [optLoopPO, h]
    simp only [hsv]

theorem optLoopPO_sound (hin : PoInput P cfg o iter) (hst : ∀ K, ¬ Stuck P cfg K) (heff : AllEff P) (hac : ∀ K, AcyclicAll P cfg K)
    (hso : ∀ cs w, solve cs = some w → satAll w cs) :
    ∀ (f K L n : Nat) (V : VM) (F : Nat) (B : Int), (∀ k < K + f, (tree P cfg k).leaves.length ≤ 65536) → L ≤ K →
    VMInv (tree P cfg K) n V →
    ∃ l, optLoopPO P cfg o iter cost solve f K L n V F B = some l ∧
      (∀ x ∈ l, SolutionOfHeight P x.1 x.2 ∧ (∀ a ∈ x.2, NoClash P a)) ∧
      l.IsChain (Better cost) ∧ ∀ x ∈ l.head?, K ≤ x.1 ∧ Within cost F B x.2 := by
  intro f
  induction f with
  | zero => intro K L n V F B _ _ _; exact ⟨[], rfl, by simp, by simp, by simp⟩
  | succ f ih =>
    intro K L n V F B hsz hL hV
    rcases optLoopPO_step (cost := cost) hin hst heff hac hso (hsz K (by omega)) hL hV F B with ⟨n', V', h1, h2, -⟩ | ⟨n', π, h1, h2, h3, h4⟩
    · obtain ⟨l, k1, k2, k3, k4⟩ := ih (K + 1) L n' V' F B (fun k hk => hsz k (by omega)) (by omega) h1
      exact ⟨l, by rw [h2, k1], k2, k3, fun x hx => ⟨by have := (k4 x hx).1; omega, (k4 x hx).2⟩⟩
    · obtain ⟨l, k1, k2, k3, k4⟩ := ih K K n' (fun _ => none) (if sumCost cost π < 1000 then 1 else F)
        ((sumCost cost π : Int) - (if sumCost cost π < 1000 then 1 else F : Nat)) (fun k hk => hsz k (by omega)) (Nat.le_refl _) (vmInv_empty _ _)
      refine ⟨(K, π) :: l, by rw [h4, k1]; rfl, ?_, ?_, ?_⟩
      · intro x hx
        rcases List.mem_cons.1 hx with rfl | hx
        · exact ⟨h1, h2⟩
        · exact k2 x hx
      · rw [List.isChain_cons]
        refine ⟨fun x hx => ?_, k3⟩
        obtain ⟨g1, g2⟩ := k4 x hx
        refine ⟨g1, fun hpos hlt => ?_⟩
        simp only at hpos hlt ⊢
        rw [if_pos hlt, within_one] at g2
        have := g2 (by push_cast; omega)
        push_cast at this
        omega
      · intro x hx
        simp only [List.head?_cons, Option.mem_some_iff] at hx
        subst hx
        exact ⟨Nat.le_refl _, h3⟩

/-- With factor 1 the last plan that is printed has the least costs of all plans; if no plan is within the bound, none is
printed. -/
theorem optLoopPO_optimal (hin : PoInput P cfg o iter) (hst : ∀ K, ¬ Stuck P cfg K) (heff : AllEff P) (hac : ∀ K, AcyclicAll P cfg K)
    (hexa : ∀ K, ExactAll P cfg K) (hmu : MutexAll P o) (hso : SolverOK solve) {Ks : Nat} {πs : List Nat}
    (hs : ∀ k ≥ Ks, SolutionOfHeight P k πs) (hna : ∀ a ∈ πs, NoClash P a) (hpos : 0 < sumCost cost πs)
    (hmin : ∀ π, IsSolution P π → (∀ a ∈ π, NoClash P a) → sumCost cost πs ≤ sumCost cost π) :
    ∀ (f b K L n : Nat) (V : VM), (∀ k < K + f, (tree P cfg k).leaves.length ≤ 65536) → L ≤ K → VMInv (tree P cfg K) n V →
    (b ≠ 0 → (Ks - K) + b ≤ f) →
    ∃ l, optLoopPO P cfg o iter cost solve f K L n V 1 ((sumCost cost πs : Int) + b - 1) = some l ∧
      (b = 0 → l = []) ∧ (b ≠ 0 → ∃ x, l.getLast? = some x ∧ IsSolution P x.2 ∧ sumCost cost x.2 = sumCost cost πs) := by
  intro f
  induction f with
  | zero => intro b K L n V _ _ _ hb; exact ⟨[], rfl, fun _ => rfl, fun h => absurd (hb h) (by omega)⟩
  | succ f ih =>
    intro b K L n V hsz hL hV hb
    rcases optLoopPO_step (cost := cost) hin hst heff hac hso.sat (hsz K (by omega)) hL hV 1 ((sumCost cost πs : Int) + b - 1) with
      ⟨n', V', h1, h2, h3⟩ | ⟨n', π, g1, g2, g3, g4⟩
    · obtain ⟨l, k1, k2⟩ := ih b (K + 1) L n' V' (fun k hk => hsz k (by omega)) (by omega) h1 (fun hb0 => by
        have := hb hb0
        by_cases hK : Ks ≤ K
        · exact absurd ⟨πs, hs K hK, hna, within_one.2 fun _ => by omega⟩ (h3 (hexa K) hmu hso (.inl (by omega)))
        · omega)
      exact ⟨l, by rw [h2, k1], k2⟩
    · have hle : sumCost cost π ≤ sumCost cost πs + b - 1 := by
        have := within_one.1 g3 (by omega)
        omega
      have hge := hmin π g1.isSolution g2
      have hb0 : b ≠ 0 := by omega
      have hbb : ((sumCost cost π : Int) - ((if sumCost cost π < 1000 then 1 else 1 : Nat) : Int)) =
          (sumCost cost πs : Int) + ((sumCost cost π - sumCost cost πs : Nat) : Int) - 1 := by
        rw [ite_self]
        push_cast [Nat.cast_sub hge]
        omega
      obtain ⟨l, k1, k2, k3⟩ := ih (sumCost cost π - sumCost cost πs) K K n' (fun _ => none) (fun k hk => hsz k (by omega)) (Nat.le_refl _)
        (vmInv_empty _ _) (fun _ => by have := hb hb0; omega)
      refine ⟨(K, π) :: l, ?_, fun h => absurd h hb0, fun _ => ?_⟩
      · rw [g4 f, hbb, ite_self, k1]
        rfl
      · by_cases h0 : sumCost cost π - sumCost cost πs = 0
        · refine ⟨(K, π), by rw [k2 h0]; rfl, g1.isSolution, ?_⟩
          show sumCost cost π = sumCost cost πs
          omega
        · obtain ⟨x, hx, hx'⟩ := k3 h0
          refine ⟨x, ?_, hx'⟩
          rw [List.getLast?_cons, hx]
          rfl

end

end Verif.Pdt
