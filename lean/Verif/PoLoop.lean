import Verif.PoComplete

/-! # The loop of the SAT planner for partially ordered problems -/

namespace Verif.Pdt

open Verif.Htn Verif.Sog Verif.Sat Verif.Inv Relation

section
variable {P : Problem} {cfg : Cfg} {o : SatOpts} {iter : List Nat → List Nat} {K : Nat} {n : Nat} {V : VM}

/-- The graphs of all vertices are free of cycles. -/
def AcyclicAll (P : Problem) (cfg : Cfg) (K : Nat) : Prop := ∀ p d, (tree P cfg K).nd p = some d → AcyclicAt P cfg d

/-- The graphs of all vertices impose nothing more than the methods. -/
def ExactAll (P : Problem) (cfg : Cfg) (K : Nat) : Prop := ∀ p d, (tree P cfg K).nd p = some d → ExactAt P cfg d

/-- The formula exists if there are not too many leaves. -/
theorem partsPO_exist (hin : PoInput P cfg o iter) (hst : ¬ Stuck P cfg K) (heff : AllEff P) (hsz : (tree P cfg K).leaves.length ≤ 65536)
    (hV : VMInv (tree P cfg K) n V) : ∃ n1 V' l s M, PartsPO P cfg o iter (tree P cfg K) n V n1 V' l s M := by
  have ht := tree_ok hin.wf hin.conf hst
  obtain ⟨h1, -, -⟩ := assignVars_spec ht (localW_empty ht) hV
  obtain ⟨l, hl, -⟩ := treeItems_holds ht hin.conf.tot hin.meth (localW_empty ht) h1 rfl
  have hvs := sog_leaves hin hst
  have hmix : ((leafSog (tree P cfg K) (adjAt P cfg (tree P cfg K)) (tree P cfg K).K []).1.any (mixedLeaf P (tree P cfg K))) = false := by
    rw [List.any_eq_false]
    intro q _ h
    unfold mixedLeaf at h
    rw [Bool.and_eq_true, List.any_eq_true] at h
    obtain ⟨-, a, ha, h⟩ := h
    unfold leafPrims at ha
    cases hd : (tree P cfg K).nd q with
    | none => rw [hd] at ha; simp at ha
    | some d =>
      rw [hd] at ha
      rw [heff a ((ht.nd q d hd).isPrim a ha)] at h
      simp at h
  obtain ⟨vs, hvs'⟩ : ∃ vs, vs = (leafSog (tree P cfg K) (adjAt P cfg (tree P cfg K)) (tree P cfg K).K []).1 := ⟨_, rfl⟩
  obtain ⟨np, hnp⟩ : ∃ np, np = (emit o.bits (assignVars P (tree P cfg K) Flags.empty n V).1
    (l ++ (noAbs (tree P cfg K) (assignVars P (tree P cfg K) Flags.empty n V).2).map .cl)).1 := ⟨_, rfl⟩
  obtain ⟨M0, hM0⟩ : ∃ M0 : MData, M0 = ⟨vs, poActs iter (tree P cfg K) vs, poSteps P (tree P cfg K) vs, np, 0⟩ := ⟨_, rfl⟩
  have hpos : 1 ≤ M0.steps := by rw [hM0]; exact Nat.le_max_left _ _
  have hs : ∃ s, stateFormulaUnit P (np + M0.steps * M0.acts.length) M0.vars = some s := by
    unfold stateFormulaUnit stateFormula
    rw [if_neg, if_pos]
    · exact ⟨_, rfl⟩
    · rw [List.all_eq_true]
      intro b hb
      obtain ⟨x, hx, rfl⟩ := List.mem_map.1 hb
      simpa using hx
    · rw [List.map_eq_nil_iff, List.range_eq_nil, vars_length]
      omega
  obtain ⟨s, hs⟩ := hs
  refine ⟨_, _, l, s, ⟨vs, poActs iter (tree P cfg K) vs, poSteps P (tree P cfg K) vs, np, s.1⟩,
    ⟨rfl, by rw [hvs]; exact hsz, by rw [hmix, Bool.and_false], hl, hvs', rfl, rfl, hnp, rfl, ?_⟩⟩
  rw [hM0] at hs
  exact hs

/-- One depth. -/
theorem depthPO_formula (hin : PoInput P cfg o iter) (hst : ¬ Stuck P cfg K) (heff : AllEff P) (hac : AcyclicAll P cfg K)
    (hV : VMInv (tree P cfg K) n V) {V' : VM} {n' : Nat} {cs : List Clause} {M : MData}
    (h : depthFormulaPO P cfg o iter (tree P cfg K) n V = .formula V' n' cs M) :
    VMInv (tree P cfg K) n' V' ∧
    (∀ w, satAll w cs → SolutionOfHeight P K (printedPO (tree P cfg K) V' M w) ∧ ∀ a ∈ printedPO (tree P cfg K) V' M w, NoClash P a) ∧
    (ExactAll P cfg K → MutexAll P o → ∀ π, SolutionOfHeight P K π → (∀ a ∈ π, NoClash P a) →
      ∃ w, satAll w cs ∧ printedPO (tree P cfg K) V' M w = π) := by
  have ht := tree_ok hin.wf hin.conf hst
  obtain ⟨n1, l, s, hp, hcs⟩ := PartsPO.of_formula h
  obtain ⟨hV1, -, -⟩ := assignVars_spec ht (localW_empty ht) hV
  rw [hp.vars] at hV1
  obtain ⟨rfl, rfl⟩ : n' = (clausesPO P cfg o (tree P cfg K) n1 V' l s M).1 ∧ cs = (clausesPO P cfg o (tree P cfg K) n1 V' l s M).2 :=
    ⟨congrArg Prod.fst hcs, congrArg Prod.snd hcs⟩
  obtain ⟨le1, le2, le3, le4, le5⟩ := parts_le hp
  refine ⟨hV1.toVMInv.mono (by omega), fun w hw => formulaPO_sound hin hst heff hac hp hV1 hw, fun hexa hmu π hπ hna => ?_⟩
  obtain ⟨tr, hv, hh, ⟨occ, hocc⟩, s', hex, hg⟩ := hπ
  obtain ⟨sel, hs, hrep⟩ := rep_of_tree ht (tree_has hin.wf hin.conf hst) hin.conf.tot hin.meth hin.wf.head_abs hv hh
  obtain ⟨φ, hφ, -, hk⟩ := rep_map (A := adjAt P cfg (tree P cfg K)) hrep
  obtain ⟨hx, hπ⟩ := sched_of_linearises hφ (hk (acyclic_tree hac) fun p m mp h => exact_tree hin.wf hin.conf hin.po hexa h) hocc
  subst hπ
  refine formulaPO_complete hin hst heff hp hV1 hs hx hex hg hna ?_
  intro G B ho
  obtain ⟨hG, hB, h⟩ := hmu G B ho
  have hprim : ∀ a ∈ (occ.map φ).flatMap (actAt (tree P cfg K) sel), P.prim a = true := by
    intro a ha
    refine planOf_prim ht hs a ?_
    obtain ⟨x, hx', ha⟩ := List.mem_flatMap.1 ha
    exact List.mem_flatMap.2 ⟨x, ((hx.mem x).1 hx').1, ha⟩
  exact ⟨hG, hB, fun π' s hpre hex => h π' s (fun a ha => ⟨hprim a (hpre.subset ha), hna a (hpre.subset ha)⟩) hex⟩

/-- The loop prints a plan of the depth at which it stops. -/
theorem satLoopPO_sound (hin : PoInput P cfg o iter) (hst : ∀ K, ¬ Stuck P cfg K) (heff : AllEff P) (hac : ∀ K, AcyclicAll P cfg K)
    {solve : List Clause → Option Assignment} (hso : ∀ cs w, solve cs = some w → satAll w cs) : ∀ (f K n : Nat) (V : VM), VMInv (tree P cfg K) n V →
    ∀ K' π, satLoopPO P cfg o iter solve f K n V = .plan K' π → SolutionOfHeight P K' π ∧ ∀ a ∈ π, NoClash P a := by
  intro f
  induction f with
  | zero => intro K n V _ K' π h; simp [satLoopPO] at h
  | succ f ih =>
    intro K n V hV K' π h
    rw [satLoopPO] at h
    cases hd : depthFormulaPO P cfg o iter (tree P cfg K) n V with
    | undef => rw [hd] at h; simp at h
    | formula V' n' cs M =>
      obtain ⟨hV', hs, -⟩ := depthPO_formula hin (hst K) heff (hac K) hV hd
      rw [hd] at h
      simp only at h
      cases hc : solve cs with
      | none => rw [hc] at h; exact ih (K + 1) n' V' hV'.next K' π h
      | some w =>
        rw [hc] at h
        simp only [LRes.plan.injEq] at h
        obtain ⟨rfl, rfl⟩ := h
        exact hs w (hso cs w hc)

/-- The loop stops at the first depth for which there is a plan. -/
theorem satLoopPO_complete (hin : PoInput P cfg o iter) (hst : ∀ K, ¬ Stuck P cfg K) (heff : AllEff P) (hac : ∀ K, AcyclicAll P cfg K)
    (hexa : ∀ K, ExactAll P cfg K) (hmu : MutexAll P o) {solve : List Clause → Option Assignment} (hso : SolverOK solve) {Km : Nat}
    (hsz : ∀ K ≤ Km, (tree P cfg K).leaves.length ≤ 65536)
    (hex : ∃ π, SolutionOfHeight P Km π ∧ ∀ a ∈ π, NoClash P a)
    (hmin : ∀ K < Km, ¬ ∃ π, SolutionOfHeight P K π ∧ ∀ a ∈ π, NoClash P a) :
    ∀ (f K n : Nat) (V : VM), VMInv (tree P cfg K) n V → K ≤ Km → Km < K + f →
    ∃ π, satLoopPO P cfg o iter solve f K n V = .plan Km π ∧ SolutionOfHeight P Km π := by
  intro f
  induction f with
  | zero => intro K n V _ h1 h2; omega
  | succ f ih =>
    intro K n V hV h1 h2
    rw [satLoopPO]
    obtain ⟨n1, V', l, s, M, hp⟩ := partsPO_exist hin (hst K) heff (hsz K h1) hV
    have hd := hp.formula
    obtain ⟨hV', hs, hc⟩ := depthPO_formula hin (hst K) heff (hac K) hV hd
    rw [hd]
    simp only
    cases hsv : solve (clausesPO P cfg o (tree P cfg K) n1 V' l s M).2 with
    | some w =>
      have hsol := hs w (hso.sat _ w hsv)
      have : K = Km := by
        by_contra hne
        exact hmin K (by omega) ⟨_, hsol⟩
      subst this
      exact ⟨_, rfl, hsol.1⟩
    | none =>
      refine ih (K + 1) _ V' hV'.next ?_ (by omega)
      rcases Nat.lt_or_ge K Km with h | h
      · omega
      · obtain rfl : K = Km := by omega
        obtain ⟨π, hπ, hna⟩ := hex
        obtain ⟨w, hw, -⟩ := hc (hexa K) hmu π hπ hna
        exact absurd ⟨w, hw⟩ (hso.unsat _ hsv)

end

end Verif.Pdt
