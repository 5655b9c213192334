import Verif.PoCost
import Verif.PoPrintLoop
import Verif.SatMain

/-! # Model of a whole run of the SAT planner with optimisation of the plan costs (src/sat/sat_planner.cpp 707-838),
partially ordered problems

Everything that is printed by `printSolution` (41-156) for the first plan and for the plans of the optimisation, with the
printed order. -/

namespace Verif.Pdt

open Verif.Htn Verif.Sog Verif.Sat Verif.Inv

/-- The loop of the optimisation (sat_planner.cpp 707-777) with the whole output for each plan; compare `optLoopPO`. -/
def outLoopPO (P : Problem) (cfg : Cfg) (o : SatOpts) (iter : List Nat → List Nat) (cost : Nat → Nat)
    (solve : List Clause → Option Assignment) :
    (fuel K L n : Nat) → VM → (F : Nat) → (B : Int) → Option (List (Nat × SatOut × List (Nat × List Nat)))
  | 0, _, _, _, _, _, _ => some []
  | f + 1, K, L, n, V, F, B =>
    match costDepthPO P cfg o iter cost F B (tree P cfg K) n V with
    | .undef => none
    | .formula V' n' cs M =>
      match solve cs with
      | none =>
        if K + 1 + 15 < L then outLoopPO P cfg o iter cost solve f L L n' V' 1 (B + 999)
        else outLoopPO P cfg o iter cost solve f (K + 1) L n' V' F B
      | some w =>
        let out := satOutPO P (tree P cfg K) V' M w
        let F' := if sumCost cost out.plan < 1000 then 1 else F
        (outLoopPO P cfg o iter cost solve f K K n' (fun _ => none) F' ((sumCost cost out.plan : Int) - F')).map fun l =>
          (K, out, orderAt P cfg iter K V' M w) :: l

/-- `solve_with_sat_planner_linear_bound_increase` (sat_planner.cpp 782-838) with `optimisePlan`; compare `satOptRun`. -/
def satOptRunPO (P : Problem) (cfg : Cfg) (o : SatOpts) (iter : List Nat → List Nat) (cost : Nat → Nat)
    (solve : List Clause → Option Assignment) : (fuel K n : Nat) → VM → Option (List (Nat × SatOut × List (Nat × List Nat)))
  | 0, _, _, _ => some []
  | f + 1, K, n, V =>
    match depthFormulaPO P cfg o iter (tree P cfg K) n V with
    | .undef => none
    | .formula V' n' cs M =>
      match solve cs with
      | none => satOptRunPO P cfg o iter cost solve f (K + 1) n' V'
      | some w =>
        let out := satOutPO P (tree P cfg K) V' M w
        (outLoopPO P cfg o iter cost solve f K K n' (fun _ => none) 1000 ((sumCost cost out.plan : Int) - 1)).map fun l =>
          (K, out, orderAt P cfg iter K V' M w) :: l

/-- What an output has to be. -/
def RightPO (P : Problem) (cfg : Cfg) (x : Nat × SatOut × List (Nat × List Nat)) : Prop :=
  ∃ tr k n ν occ, OutPO P x.1 x.2.1 tr k n ν occ ∧ OrderPO P x.2.1 x.2.2 tr ν ∧ (ExactAll P cfg x.1 → OrderExact P x.2.2 tr ν)

section
variable {P : Problem} {cfg : Cfg} {o : SatOpts} {iter : List Nat → List Nat} {cost : Nat → Nat} {solve : List Clause → Option Assignment}

/-- Every model of the formula for a depth is printed correctly. -/
theorem depthPO_out (hin : PoInput P cfg o iter) {K : Nat} (hst : ¬ Stuck P cfg K) (heff : AllEff P) (hac : AcyclicAll P cfg K) {n : Nat} {V : VM}
    (hV : VMInv (tree P cfg K) n V) {V' : VM} {n' : Nat} {cs : List Clause} {M : MData}
    (h : depthFormulaPO P cfg o iter (tree P cfg K) n V = .formula V' n' cs M) (w : Assignment) (hw : satAll w cs) :
    (satOutPO P (tree P cfg K) V' M w).plan = printedPO (tree P cfg K) V' M w ∧
    RightPO P cfg (K, satOutPO P (tree P cfg K) V' M w, orderAt P cfg iter K V' M w) := by
  have ht := tree_ok hin.wf hin.conf hst
  obtain ⟨n1, l, s, hp, hcs⟩ := PartsPO.of_formula h
  obtain ⟨hV1, -, -⟩ := assignVars_spec ht (localW_empty ht) hV
  rw [hp.vars] at hV1
  obtain ⟨rfl, rfl⟩ : n' = (clausesPO P cfg o (tree P cfg K) n1 V' l s M).1 ∧ cs = (clausesPO P cfg o (tree P cfg K) n1 V' l s M).2 :=
    ⟨congrArg Prod.fst hcs, congrArg Prod.snd hcs⟩
  exact formulaPO_order hin hst heff hac hp hV1 hw

/-- A formula in cost mode has the formula without costs in it. -/
theorem costDepthPO_form {F : Nat} {B : Int} {t : T} {n : Nat} {V V' : VM} {n' : Nat} {cs : List Clause} {M : MData}
    (h : costDepthPO P cfg o iter cost F B t n V = .formula V' n' cs M) :
    ∃ n1 cs1 cs2, depthFormulaPO P cfg o iter t n V = .formula V' n1 cs1 M ∧ cs = cs1 ++ cs2 := by
  unfold costDepthPO at h
  cases hd : depthFormulaPO P cfg o iter t n V with
  | undef => rw [hd] at h; simp at h
  | formula V1 n1 cs1 M1 =>
    rw [hd] at h
    simp only [FResPO.formula.injEq] at h
    obtain ⟨rfl, -, rfl, rfl⟩ := h
    exact ⟨n1, cs1, _, rfl, rfl⟩

/-- The outputs of the optimisation: their plans are those of `optLoopPO`, and they are right. -/
theorem outLoopPO_spec (hin : PoInput P cfg o iter) (hst : ∀ K, ¬ Stuck P cfg K) (heff : AllEff P) (hac : ∀ K, AcyclicAll P cfg K)
    (hso : ∀ cs w, solve cs = some w → satAll w cs) :
    ∀ (f K L n : Nat) (V : VM) (F : Nat) (B : Int), L ≤ K → VMInv (tree P cfg K) n V →
    (outLoopPO P cfg o iter cost solve f K L n V F B).map (List.map fun x => (x.1, x.2.1.plan)) =
      optLoopPO P cfg o iter cost solve f K L n V F B ∧
    ∀ l, outLoopPO P cfg o iter cost solve f K L n V F B = some l → ∀ x ∈ l, RightPO P cfg x := by
  intro f
  induction f with
  | zero => intro K L n V F B _ _; exact ⟨rfl, fun l h x hx => by simp [outLoopPO] at h; subst h; simp at hx⟩
  | succ f ih =>
    intro K L n V F B hL hV
    have hdead : ¬ K + 1 + 15 < L := by omega
    rw [outLoopPO, optLoopPO]
    cases h : costDepthPO P cfg o iter cost F B (tree P cfg K) n V with
    | undef => exact ⟨rfl, fun l hl => by simp at hl⟩
    | formula V' n' cs M =>
      obtain ⟨hV', -, -⟩ := costDepthPO_spec hin (hst K) heff (hac K) hV B h
      simp only
      cases hc : solve cs with
      | none =>
        simp only [if_neg hdead]
        exact ih (K + 1) L n' V' F B (by omega) hV'.next
      | some w =>
        simp only
        obtain ⟨n1, cs1, cs2, hd, rfl⟩ := costDepthPO_form h
        have hw := hso _ w hc
        rw [satAll_append] at hw
        obtain ⟨k1, k2⟩ := depthPO_out hin (hst K) heff (hac K) hV hd w hw.1
        rw [k1]
        obtain ⟨i1, i2⟩ := ih K K n' (fun _ => none) (if sumCost cost (printedPO (tree P cfg K) V' M w) < 1000 then 1 else F)
          ((sumCost cost (printedPO (tree P cfg K) V' M w) : Int) - (if sumCost cost (printedPO (tree P cfg K) V' M w) < 1000 then 1 else F : Nat))
          (Nat.le_refl _) (vmInv_empty _ _)
        constructor
        · rw [← i1, Option.map_map, Option.map_map]
          congr 1
          funext l
          simp [k1]
        · intro l hl x hx
          rw [Option.map_eq_some_iff] at hl
          obtain ⟨l', hl', rfl⟩ := hl
          rcases List.mem_cons.1 hx with rfl | hx
          · exact k2
          · exact i2 l' hl' x hx

/-- A run: nothing is printed as long as there is no first plan, and after it the optimisation follows. -/
theorem satOptRunPO_cases (hin : PoInput P cfg o iter) (hst : ∀ K, ¬ Stuck P cfg K) (heff : AllEff P) (hac : ∀ K, AcyclicAll P cfg K)
    (hso : ∀ cs w, solve cs = some w → satAll w cs) :
    ∀ (f K n : Nat) (V : VM), (∀ k < K + f, (tree P cfg k).leaves.length ≤ 65536) → VMInv (tree P cfg K) n V →
    (satLoopPO P cfg o iter solve f K n V = .outOfFuel ∧ satOptRunPO P cfg o iter cost solve f K n V = some []) ∨
    ∃ K' out order n', K ≤ K' ∧ K' < K + f ∧ satLoopPO P cfg o iter solve f K n V = .plan K' out.plan ∧ SolutionOfHeight P K' out.plan ∧
      RightPO P cfg (K', out, order) ∧
      satOptRunPO P cfg o iter cost solve f K n V =
        (outLoopPO P cfg o iter cost solve (f - (K' + 1 - K)) K' K' n' (fun _ => none) 1000 ((sumCost cost out.plan : Int) - 1)).map fun l =>
          (K', out, order) :: l := by
  intro f
  induction f with
  | zero => intro K n V _ _; exact .inl ⟨rfl, rfl⟩
  | succ f ih =>
    intro K n V hsz hV
    rw [satOptRunPO, satLoopPO]
    obtain ⟨n1, V1, l, s, M1, hp⟩ := partsPO_exist hin (hst K) heff (hsz K (by omega)) hV
    cases hd : depthFormulaPO P cfg o iter (tree P cfg K) n V with
    | undef => rw [hp.formula] at hd; simp at hd
    | formula V' n' cs M =>
      obtain ⟨hV', hs, -⟩ := depthPO_formula hin (hst K) heff (hac K) hV hd
      simp only
      cases hc : solve cs with
      | none =>
        rcases ih (K + 1) n' V' (fun k hk => hsz k (by omega)) hV'.next with h | ⟨K', out, order, n2, h1, h2, h3, h4, h5, h6⟩
        · exact .inl h
        · refine .inr ⟨K', out, order, n2, by omega, by omega, h3, h4, h5, ?_⟩
          simp only
          rw [h6, show f - (K' + 1 - (K + 1)) = f + 1 - (K' + 1 - K) by omega]
      | some w =>
        obtain ⟨k1, k2⟩ := depthPO_out hin (hst K) heff (hac K) hV hd w (hso _ w hc)
        refine .inr ⟨K, _, _, n', Nat.le_refl _, by omega, by rw [k1], by rw [k1]; exact (hs w (hso _ w hc)).1, k2, ?_⟩
        rw [show f + 1 - (K + 1 - K) = f by omega]

end

end Verif.Pdt
