import Verif.SatPlan

/-! # Model of the loop over depths (src/sat/sat_planner.cpp 782-838), totally ordered problems, first plan -/

namespace Verif.Pdt

open Verif.Htn Verif.Sog Verif.Sat Verif.Inv

/-- How the planner ends; it has no other end than a plan. -/
inductive LRes where
  | undef
  | outOfFuel
  | plan (K : Nat) (π : List Nat)

/-- The loop over depths (sat_planner.cpp 782-838).  The tree and the counter of variables are kept from depth to depth,
each depth has a new solver.  `solve` is the solver: a model or the answer that there is none. -/
def satLoop (P : Problem) (cfg : Cfg) (o : SatOpts) (solve : List Clause → Option Assignment) : Nat → Nat → Nat → VM → LRes
  | 0, _, _, _ => .outOfFuel
  | f + 1, K, n, V =>
    match depthFormula P o (tree P cfg K) n V with
    | .undef => .undef
    | .pruned => satLoop P cfg o solve f (K + 1) n V
    | .formula V' n' cs =>
      match solve cs with
      | some w => .plan K (printed (tree P cfg K) V' w)
      | none => satLoop P cfg o solve f (K + 1) n' V'

/-- `solve_with_sat_planner_linear_bound_increase` from depth 1 on with an empty table. -/
def satPlan (P : Problem) (cfg : Cfg) (o : SatOpts) (solve : List Clause → Option Assignment) (fuel : Nat) : LRes :=
  satLoop P cfg o solve fuel 1 0 fun _ => none

/-- A correct and complete solver. -/
structure SolverOK (solve : List Clause → Option Assignment) : Prop where
  sat : ∀ cs w, solve cs = some w → satAll w cs
  unsat : ∀ cs, solve cs = none → ¬ ∃ w, satAll w cs

section
variable {P : Problem} {cfg : Cfg}

/-- The tree only grows. -/
theorem nodeAt_mono {K : Nat} : ∀ p d, nodeAt P cfg K p = some d → nodeAt P cfg (K + 1) p = some d := by
  intro p
  induction p with
  | nil => intro d h; exact h
  | cons c p ih =>
    intro d h
    rw [nodeAt] at h ⊢
    cases hp : nodeAt P cfg K p with
    | none => rw [hp] at h; simp at h
    | some e =>
      rw [hp] at h
      rw [ih e hp]
      simp only at h ⊢
      by_cases hc : p.length < K ∧ e.abss ≠ []
      · rw [if_pos hc] at h
        rw [if_pos ⟨Nat.lt_succ_of_lt hc.1, hc.2⟩]
        exact h
      · rw [if_neg hc] at h; simp at h

theorem VMInv.next {K n : Nat} {V : VM} (h : VMInv (tree P cfg K) n V) : VMInv (tree P cfg (K + 1)) n V := by
  refine ⟨h.vars, fun p i hi => ?_, fun p a ha => ?_, h.cover⟩
  · obtain ⟨d, hd, hi'⟩ := h.prim p i hi
    exact ⟨d, nodeAt_mono p d hd, hi'⟩
  · obtain ⟨d, hd, ha'⟩ := h.abs p a ha
    exact ⟨d, nodeAt_mono p d hd, ha'⟩

theorem vmInv_empty (t : T) (n : Nat) : VMInv t n fun _ => none :=
  ⟨⟨fun a b x h => by simp at h, fun a x h => by simp at h⟩, fun p i h => absurd rfl h, fun p a h => absurd rfl h,
    fun c p h => by rcases h with ⟨i, h⟩ | ⟨i, h⟩ <;> exact absurd rfl h⟩

/-- What the formula for mutexes may rely on, for all executable sequences of actions that do not add and delete the same
fact. -/
def MutexAll (P : Problem) (o : SatOpts) : Prop :=
  ∀ G B, o.mutex = some (G, B) → GivenIn P.numFacts G ∧ BinIn P.numFacts B ∧
    ∀ π s, (∀ a ∈ π, P.prim a = true ∧ NoClash P a) → Exec P P.initState π s → G.Ok s ∧ AllHold s B

/-- The assumptions about problem, configuration and options. -/
structure SatInput (P : Problem) (cfg : Cfg) (o : SatOpts) : Prop where
  wf : P.WF
  conf : CfgOK P cfg
  tot : TotOK P cfg.tot
  meth : AllMeth P
  bits : ∀ k, k ≤ 2 ^ o.bits k
  seq : cfg.po = false

theorem planOf_prim {K : Nat} (ht : (tree P cfg K).OK P cfg.tot) {sel : Path → Sel} (hs : Consistent P (tree P cfg K) sel) :
    ∀ a ∈ planOf (tree P cfg K) sel, P.prim a = true := by
  intro a ha
  obtain ⟨p, -, ha⟩ := List.mem_flatMap.1 ha
  unfold actAt at ha
  cases hd : (tree P cfg K).nd p with
  | none => rw [hd] at ha; simp at ha
  | some d =>
    rw [hd] at ha
    cases hsp : sel p with
    | none => rw [hsp] at ha; simp at ha
    | abs a m => rw [hsp] at ha; simp at ha
    | prim i =>
      rw [hsp] at ha
      simp only [List.mem_singleton] at ha
      subst ha
      obtain ⟨d', x, hd', hx⟩ := hs.prim p i hsp
      rw [hd] at hd'
      obtain rfl := Option.some.inj hd'
      rw [getD_of hx]
      exact (ht.nd p d hd).isPrim x (List.mem_of_getElem? hx)

theorem yield_prim {tot : Nat → List Nat} (htot : ∀ m < P.numMethods, (tot m).Perm (List.range (P.sub m).length)) {x : Nat} {tr : Tree}
    (hv : Valid P x tr) : ∀ a ∈ yield tot tr, P.prim a = true := by
  induction hv with
  | leaf h => intro a ha; simp only [yield, List.mem_singleton] at ha; exact ha ▸ h
  | @node m cs hm _ ih =>
    intro a ha
    rw [yield, List.mem_flatMap] at ha
    obtain ⟨i, hi, ha⟩ := ha
    have hlt := List.mem_range.1 ((htot m hm).mem_iff.1 hi)
    exact ih i _ (List.getElem?_eq_getElem hlt) a ha

/-- One depth: the formula is defined, its models are plans of this height, and it has a model for every plan of this
height.  The tables are fit for the next depth. -/
theorem depth_spec {o : SatOpts} (hin : SatInput P cfg o) {K : Nat} (hst : ¬ Stuck P cfg K) {n : Nat} {V : VM}
    (hV : VMInv (tree P cfg K) n V) :
    (depthFormula P o (tree P cfg K) n V = .pruned ∧ ¬ ∃ π, SolutionOfHeight P K π ∧ ∀ a ∈ π, NoClash P a) ∨
    ∃ V' n' cs, depthFormula P o (tree P cfg K) n V = .formula V' n' cs ∧ VMInv (tree P cfg K) n' V' ∧
      (∀ w, satAll w cs → SolutionOfHeight P K (printed (tree P cfg K) V' w) ∧ ∀ a ∈ printed (tree P cfg K) V' w, NoClash P a) ∧
      (MutexAll P o → ∀ π, SolutionOfHeight P K π → (∀ a ∈ π, NoClash P a) →
        ∃ w, satAll w cs ∧ printed (tree P cfg K) V' w = π) := by
  have ht := tree_ok hin.wf hin.conf hst
  have hsq := tree_seq hin.wf hin.conf hst hin.seq
  obtain ⟨S, h1, h2, h3, h⟩ := depthFormula_cases ht hin.conf.tot hin.meth o hV
  have hsol : ∀ π, SolutionOfHeight P K π → (∀ a ∈ π, NoClash P a) → ∃ sel s', Consistent P (tree P cfg K) sel ∧ planOf (tree P cfg K) sel = π ∧
      Unpruned (tree P cfg K) S sel ∧ Exec P P.initState π s' ∧ P.GoalState s' := by
    intro π hπ hna
    obtain ⟨tr, hv, hh, rfl, s', hex, hg⟩ := (solutionOfHeight_iff hin.wf hin.tot).1 hπ
    obtain ⟨sel, k1, k2⟩ := selection_of_tree ht hsq hin.conf.tot hin.meth hin.wf.head_abs (fun _ _ _ h => h) hv hh
    exact ⟨sel, s', k1, k2, h3 sel k1 ⟨s', by rw [k2]; exact hex⟩ (fun _ => by rw [k2]; exact hna), hex, hg⟩
  rcases h with ⟨hr, hp⟩ | ⟨n1, V', l, r, hp, hV', hle⟩
  · left
    refine ⟨hp, ?_⟩
    rintro ⟨π, hπ, hna⟩
    obtain ⟨sel, s', k1, -, k3, -⟩ := hsol π hπ hna
    obtain ⟨m, hm⟩ := k1.root
    have := k3 (.abs [] 0) ⟨m, hm⟩
    rw [hr] at this
    exact absurd this (by simp)
  · right
    obtain ⟨le1, le2, le3⟩ := hp.le
    refine ⟨V', _, _, hp.formula, hV'.toVMInv.mono ((le1.trans le2).trans le3), fun w hw => ?_, fun hmu π hπ hna => ?_⟩
    · obtain ⟨k1, k2, ⟨s', k3, k4⟩, k5⟩ := formula_sound hin.wf ht hin.conf.tot hin.meth hin.bits h2 hp hV' hw
      obtain ⟨tr, hv, hh, hy⟩ := plan_of_selection ht hsq hin.conf.tot k1
      exact ⟨(solutionOfHeight_iff hin.wf hin.tot).2 ⟨tr, hv, hh, k2.trans hy, s', k3, k4⟩, k5⟩
    · obtain ⟨sel, s', k1, k2, k3, k4, k5⟩ := hsol π hπ hna
      have hprim := planOf_prim ht k1
      subst k2
      refine formula_complete hin.wf ht hin.conf.tot hin.meth hin.bits h2 hp hV' k1 k3 k4 k5 hna ?_
      intro G B ho
      obtain ⟨hG, hB, h⟩ := hmu G B ho
      refine ⟨hG, hB, fun π' s hpre hex => h π' s (fun a ha => ⟨hprim a (hpre.subset ha), hna a (hpre.subset ha)⟩) hex⟩

/-- No plan needs no level. -/
theorem no_height_zero (hin : P.WF) : ¬ ∃ π, SolutionOfHeight P 0 π := by
  rintro ⟨π, tr, hv, hh, -⟩
  obtain ⟨x, hx⟩ : ∃ x, x = P.init := ⟨_, rfl⟩
  rw [← hx] at hv
  cases hv with
  | leaf h => rw [hx, hin.init_abs] at h; simp at h
  | node => cases hh

/-- The loop prints a plan of the depth at which it stops. -/
theorem satLoop_sound {o : SatOpts} (hin : SatInput P cfg o) (hst : ∀ K, ¬ Stuck P cfg K)
    {solve : List Clause → Option Assignment} (hso : ∀ cs w, solve cs = some w → satAll w cs) : ∀ (f K n : Nat) (V : VM), VMInv (tree P cfg K) n V →
    satLoop P cfg o solve f K n V ≠ .undef ∧
    ∀ K' π, satLoop P cfg o solve f K n V = .plan K' π → SolutionOfHeight P K' π ∧ ∀ a ∈ π, NoClash P a := by
  intro f
  induction f with
  | zero => intro K n V _; exact ⟨by simp [satLoop], fun K' π h => by simp [satLoop] at h⟩
  | succ f ih =>
    intro K n V hV
    rw [satLoop]
    rcases depth_spec hin (hst K) hV with ⟨h, -⟩ | ⟨V', n', cs, h, hV', hs, -⟩
    · rw [h]; exact ih (K + 1) n V hV.next
    · rw [h]
      simp only
      cases hc : solve cs with
      | none => exact ih (K + 1) n' V' hV'.next
      | some w =>
        refine ⟨by simp, fun K' π h => ?_⟩
        simp only [LRes.plan.injEq] at h
        obtain ⟨rfl, rfl⟩ := h
        exact hs w (hso cs w hc)

/-- The loop stops at the first depth for which there is a plan. -/
theorem satLoop_complete {o : SatOpts} (hin : SatInput P cfg o) (hst : ∀ K, ¬ Stuck P cfg K) (hmu : MutexAll P o)
    {solve : List Clause → Option Assignment} (hso : SolverOK solve) {Km : Nat}
    (hex : ∃ π, SolutionOfHeight P Km π ∧ ∀ a ∈ π, NoClash P a)
    (hmin : ∀ K < Km, ¬ ∃ π, SolutionOfHeight P K π ∧ ∀ a ∈ π, NoClash P a) :
    ∀ (f K n : Nat) (V : VM), VMInv (tree P cfg K) n V → K ≤ Km → Km < K + f →
    ∃ π, satLoop P cfg o solve f K n V = .plan Km π ∧ SolutionOfHeight P Km π := by
  intro f
  induction f with
  | zero => intro K n V _ h1 h2; omega
  | succ f ih =>
    intro K n V hV h1 h2
    rw [satLoop]
    have hstep : ∀ (n' : Nat) (V' : VM), VMInv (tree P cfg K) n' V' → K ≠ Km →
        ∃ π, satLoop P cfg o solve f (K + 1) n' V' = .plan Km π ∧ SolutionOfHeight P Km π := fun n' V' h' hne =>
      ih (K + 1) n' V' h'.next (by omega) (by omega)
    rcases depth_spec hin (hst K) hV with ⟨h, hno⟩ | ⟨V', n', cs, h, hV', hs, hc⟩
    · rw [h]
      exact hstep n V hV fun e => hno (by rw [e]; exact hex)
    · rw [h]
      simp only
      cases hsv : solve cs with
      | some w =>
        have hsol := hs w (hso.sat cs w hsv)
        have : K = Km := by
          by_contra hne
          exact hmin K (by omega) ⟨_, hsol⟩
        subst this
        exact ⟨_, rfl, hsol.1⟩
      | none =>
        refine hstep n' V' hV' fun e => ?_
        subst e
        obtain ⟨π, hπ, hna⟩ := hex
        obtain ⟨w, hw, -⟩ := hc hmu π hπ hna
        exact hso.unsat cs hsv ⟨w, hw⟩

end

end Verif.Pdt
