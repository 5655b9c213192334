import Verif.SatCost

/-! # Model of a whole run of the SAT planner with optimisation of the plan costs (src/sat/sat_planner.cpp 707-838),
totally ordered problems

Everything that is printed by `printSolution` (41-156) for the first plan and for the plans of the optimisation. -/

namespace Verif.Pdt

open Verif.Htn Verif.Sog Verif.Sat Verif.Inv

/-- The plan that is printed. -/
def SatOut.plan (out : SatOut) : List Nat := out.acts.map Prod.snd

/-- The loop of the optimisation (sat_planner.cpp 707-777) with the whole output for each plan; compare `optLoop`, which has
the plans only. -/
def outLoop (P : Problem) (cfg : Cfg) (o : SatOpts) (cost : Nat → Nat) (solve : List Clause → Option Assignment) :
    (fuel K L n : Nat) → VM → (F : Nat) → (B : Int) → Option (List (Nat × SatOut))
  | 0, _, _, _, _, _, _ => some []
  | f + 1, K, L, n, V, F, B =>
    let next := fun (n : Nat) (V : VM) =>
      if K + 1 + 15 < L then outLoop P cfg o cost solve f L L n V 1 (B + 999)
      else outLoop P cfg o cost solve f (K + 1) L n V F B
    match costDepth P o cost F B (tree P cfg K) n V with
    | .undef => none
    | .pruned => next n V
    | .formula V' n' cs =>
      match solve cs with
      | none => next n' V'
      | some w =>
        let out := satOut P (tree P cfg K) V' w
        let F' := if sumCost cost out.plan < 1000 then 1 else F
        (outLoop P cfg o cost solve f K K n' (fun _ => none) F' ((sumCost cost out.plan : Int) - F')).map fun l => (K, out) :: l

/-- `solve_with_sat_planner_linear_bound_increase` (sat_planner.cpp 782-838) with `optimisePlan`: after the first plan the
optimisation starts at the depth of the plan, with a new tree, the numbers of variables going on, the bound one below
the costs and the factor 1000 (29). -/
def satOptRun (P : Problem) (cfg : Cfg) (o : SatOpts) (cost : Nat → Nat) (solve : List Clause → Option Assignment) :
    (fuel K n : Nat) → VM → Option (List (Nat × SatOut))
  | 0, _, _, _ => some []
  | f + 1, K, n, V =>
    match depthFormula P o (tree P cfg K) n V with
    | .undef => none
    | .pruned => satOptRun P cfg o cost solve f (K + 1) n V
    | .formula V' n' cs =>
      match solve cs with
      | none => satOptRun P cfg o cost solve f (K + 1) n' V'
      | some w =>
        let out := satOut P (tree P cfg K) V' w
        (outLoop P cfg o cost solve f K K n' (fun _ => none) 1000 ((sumCost cost out.plan : Int) - 1)).map fun l => (K, out) :: l

section
variable {P : Problem} {cfg : Cfg} {o : SatOpts} {cost : Nat → Nat} {solve : List Clause → Option Assignment}

/-- A formula in cost mode has the formula without costs in it. -/
theorem costDepth_form {F : Nat} {B : Int} {t : T} {n : Nat} {V V' : VM} {n' : Nat} {cs : List Clause}
    (h : costDepth P o cost F B t n V = .formula V' n' cs) :
    ∃ n1 cs1 cs2, depthFormula P o t n V = .formula V' n1 cs1 ∧ cs = cs1 ++ cs2 := by
  unfold costDepth at h
  cases hd : depthFormula P o t n V with
  | undef => rw [hd] at h; simp at h
  | pruned => rw [hd] at h; simp at h
  | formula V1 n1 cs1 =>
    rw [hd] at h
    simp only [FRes.formula.injEq] at h
    obtain ⟨rfl, -, rfl⟩ := h
    exact ⟨n1, cs1, _, rfl, rfl⟩

/-- The outputs of the optimisation: their plans are those of `optLoop`, and they are right. -/
theorem outLoop_spec (hin : SatInput P cfg o) (hst : ∀ K, ¬ Stuck P cfg K) (hso : ∀ cs w, solve cs = some w → satAll w cs) :
    ∀ (f K L n : Nat) (V : VM) (F : Nat) (B : Int), L ≤ K → VMInv (tree P cfg K) n V →
    (outLoop P cfg o cost solve f K L n V F B).map (List.map fun x => (x.1, x.2.plan)) = optLoop P cfg o cost solve f K L n V F B ∧
    ∀ l, outLoop P cfg o cost solve f K L n V F B = some l → ∀ x ∈ l, ∃ tr k n j, OutOK P cfg.tot x.1 x.2 tr k n j := by
  intro f
  induction f with
  | zero => intro K L n V F B _ _; exact ⟨rfl, fun l h x hx => by simp [outLoop] at h; subst h; simp at hx⟩
  | succ f ih =>
    intro K L n V F B hL hV
    have hdead : ¬ K + 1 + 15 < L := by omega
    rcases costDepth_spec (cost := cost) (F := F) hin (hst K) hV B with ⟨h, -⟩ | ⟨V', n', cs, h, hV', -, -⟩
    · rw [outLoop, optLoop, h]
      simp only [if_neg hdead]
      exact ih (K + 1) L n V F B (by omega) hV.next
    · rw [outLoop, optLoop, h]
      cases hc : solve cs with
      | none =>
        simp only [hc, if_neg hdead]
        exact ih (K + 1) L n' V' F B (by omega) hV'.next
      | some w =>
        simp only [hc]
        obtain ⟨n1, cs1, cs2, hd, rfl⟩ := costDepth_form h
        have hw := hso _ w hc
        rw [satAll_append] at hw
        obtain ⟨k1, k2⟩ := depth_out hin (hst K) hV hd w hw.1
        have k1' : (satOut P (tree P cfg K) V' w).plan = printed (tree P cfg K) V' w := k1
        rw [k1']
        obtain ⟨i1, i2⟩ := ih K K n' (fun _ => none) (if sumCost cost (printed (tree P cfg K) V' w) < 1000 then 1 else F)
          ((sumCost cost (printed (tree P cfg K) V' w) : Int) - (if sumCost cost (printed (tree P cfg K) V' w) < 1000 then 1 else F : Nat))
          (Nat.le_refl _) (vmInv_empty _ _)
        constructor
        · rw [← i1, Option.map_map, Option.map_map]
          congr 1
          funext l
          simp [k1']
        · intro l hl x hx
          rw [Option.map_eq_some_iff] at hl
          obtain ⟨l', hl', rfl⟩ := hl
          rcases List.mem_cons.1 hx with rfl | hx
          · exact k2
          · exact i2 l' hl' x hx

/-- The run with optimisation against the run without: nothing is printed as long as there is no first plan. -/
theorem satOptRun_none : ∀ (f K n : Nat) (V : VM), satRun P cfg o solve f K n V = none → satLoop P cfg o solve f K n V ≠ .undef →
    satOptRun P cfg o cost solve f K n V = some [] := by
  intro f
  induction f with
  | zero => intro K n V _ _; rfl
  | succ f ih =>
    intro K n V h hu
    rw [satRun] at h
    rw [satLoop] at hu
    rw [satOptRun]
    cases hd : depthFormula P o (tree P cfg K) n V with
    | undef => rw [hd] at hu; simp at hu
    | pruned => rw [hd] at h hu; exact ih _ _ _ h hu
    | formula V' n' cs =>
      rw [hd] at h hu
      simp only at h hu ⊢
      cases hc : solve cs with
      | none => rw [hc] at h hu; exact ih _ _ _ h hu
      | some w => rw [hc] at h; simp at h

/-- After the first plan the optimisation follows. -/
theorem satOptRun_some : ∀ (s K n : Nat) (V : VM) (K' : Nat) (out : SatOut), satRun P cfg o solve s K n V = some (K', out) →
    ∃ s' n', s' ≤ s ∧ ∀ f, satOptRun P cfg o cost solve (f + s') K n V =
      (outLoop P cfg o cost solve f K' K' n' (fun _ => none) 1000 ((sumCost cost out.plan : Int) - 1)).map fun l => (K', out) :: l := by
  intro s
  induction s with
  | zero => intro K n V K' out h; simp [satRun] at h
  | succ s ih =>
    intro K n V K' out h
    rw [satRun] at h
    cases hd : depthFormula P o (tree P cfg K) n V with
    | undef => rw [hd] at h; simp at h
    | pruned =>
      rw [hd] at h
      obtain ⟨s', n', h1, h2⟩ := ih _ _ _ _ _ h
      refine ⟨s' + 1, n', by omega, fun f => ?_⟩
      rw [← Nat.add_assoc, satOptRun, hd]
      exact h2 f
    | formula V' n1 cs =>
      rw [hd] at h
      simp only at h
      cases hc : solve cs with
      | none =>
        rw [hc] at h
        obtain ⟨s', n', h1, h2⟩ := ih _ _ _ _ _ h
        refine ⟨s' + 1, n', by omega, fun f => ?_⟩
        rw [← Nat.add_assoc, satOptRun, hd]
        simp only [hc]
        exact h2 f
      | some w =>
        rw [hc] at h
        simp only [Option.some.injEq, Prod.mk.injEq] at h
        obtain ⟨rfl, rfl⟩ := h
        refine ⟨1, n1, by omega, fun f => ?_⟩
        rw [satOptRun, hd]
        simp only [hc]

end

end Verif.Pdt
