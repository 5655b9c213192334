import Verif.PushEq
import Verif.Props.PsTranslate

/-! # Property theorems C79, C80: the translation of partially ordered problems to SAS+ -/

namespace Verif.Props

open Verif.Htn Verif.Sas

/-- **C79** (partial: only if `reorderTasks` can handle the orderings of the methods, `PushInput.top`, the memory that is written to
the file without being initialised is zero, and for `SasInput`, `S0Fits`, see C62): the translation with a bound of `B` cells is
defined, no array is read out of bounds, its result is a well-formed SAS+ task with conditional effects, its plans are exactly the
solutions that can be found by progression with at most `B` tasks at a time, and their costs are the same. -/
theorem C79_push_translate_partial (P : Problem) (vars : List (Nat × Nat)) (nA nT B : Nat) (hin : PushInput P vars nA nT)
    (hd : PrecsDiffer P vars nA) (hB : 0 < B) :
    ∃ T, pushTranslate P vars nA nT B true zeroJunk = some T ∧ T.WF ∧
      (∀ ρ, T.Plan ρ → IsSolution P (pushActs ρ) ∧ cplanCost ρ = P.planCost (pushActs ρ)) ∧
      ∀ π, (∃ ρ, T.Plan ρ ∧ pushActs ρ = π) ↔ BoundedSolution P B π := by
  obtain ⟨T, hT, -, hwf, -⟩ := pushTranslate_eq hin hB
  obtain ⟨k1, k2⟩ := pushPlans hin (hd.precFun hin.sas.contig) hB hT
  exact ⟨T, hT, hwf, fun ρ hρ => ⟨(k1 ρ hρ).1.isSolution hin.wf, (k1 ρ hρ).2⟩, fun π => ⟨fun ⟨ρ, h1, h2⟩ => h2 ▸ (k1 ρ h1).1, k2 π⟩⟩

/-- A plan of least costs is a solution of least costs among those that can be found with at most `B` tasks at a time. -/
theorem C79_push_optimal_partial (P : Problem) (vars : List (Nat × Nat)) (nA nT B : Nat) (hin : PushInput P vars nA nT)
    (hd : PrecsDiffer P vars nA) (hB : 0 < B) (T : CTask PLab) (hT : pushTranslate P vars nA nT B true zeroJunk = some T)
    (ρ : List (PLab × COp)) (hρ : T.Plan ρ) (hopt : ∀ ρ', T.Plan ρ' → cplanCost ρ ≤ cplanCost ρ') :
    IsSolution P (pushActs ρ) ∧ ∀ π, BoundedSolution P B π → P.planCost (pushActs ρ) ≤ P.planCost π := by
  obtain ⟨T', hT', -, k1, k2⟩ := C79_push_translate_partial P vars nA nT B hin hd hB
  rw [hT] at hT'
  cases hT'
  refine ⟨(k1 ρ hρ).1, fun π hπ => ?_⟩
  obtain ⟨ρ', g1, rfl⟩ := (k2 π).2 hπ
  rw [← (k1 ρ hρ).2, ← (k1 ρ' g1).2]
  exact hopt ρ' g1

/-- **C80** (partial, see C79): every solution is a plan of the translation, with the same costs, if the bound is large enough. -/
theorem C80_push_complete_partial (P : Problem) (vars : List (Nat × Nat)) (nA nT : Nat) (hin : PushInput P vars nA nT)
    (hd : PrecsDiffer P vars nA) (π : List Nat) (hs : IsSolution P π) :
    ∃ B₀, ∀ B, B₀ ≤ B → ∃ T ρ, pushTranslate P vars nA nT B true zeroJunk = some T ∧ T.Plan ρ ∧ pushActs ρ = π ∧
      cplanCost ρ = P.planCost π := by
  obtain ⟨b, hb⟩ := hs.bounded hin.wf
  refine ⟨b + 1, fun B hB => ?_⟩
  obtain ⟨T, hT, -, k1, k2⟩ := C79_push_translate_partial P vars nA nT B hin hd (by omega)
  obtain ⟨ρ, h1, h2⟩ := (k2 π).2 (hb B (by omega))
  exact ⟨T, ρ, hT, h1, h2, h2 ▸ (k1 ρ h1).2⟩

/-- The controller: with the first bound, enlarged by `step` in each round, every solution is a plan of the translated problem from some
round on, and the plans of all rounds are solutions. -/
theorem C80_push_rounds_partial (P : Problem) (vars : List (Nat × Nat)) (nA nT pgb step : Nat) (hin : PushInput P vars nA nT)
    (hd : PrecsDiffer P vars nA) (hpgb : 1 ≤ pgb) (hstep : 1 ≤ step) :
    (∀ j, ∃ T, pushTranslate P vars nA nT (pgb + j * step) true zeroJunk = some T ∧ ∀ ρ, T.Plan ρ → IsSolution P (pushActs ρ)) ∧
    ∀ π, IsSolution P π → ∃ i, ∀ j, i ≤ j →
      ∃ T ρ, pushTranslate P vars nA nT (pgb + j * step) true zeroJunk = some T ∧ T.Plan ρ ∧ pushActs ρ = π ∧
        cplanCost ρ = P.planCost π := by
  refine ⟨fun j => ?_, fun π hs => ?_⟩
  · obtain ⟨T, hT, -, k1, -⟩ := C79_push_translate_partial P vars nA nT (pgb + j * step) hin hd (by omega)
    exact ⟨T, hT, fun ρ hρ => (k1 ρ hρ).1⟩
  · obtain ⟨B, hB⟩ := C80_push_complete_partial P vars nA nT hin hd π hs
    refine ⟨B, fun j hj => hB _ ?_⟩
    have : j * 1 ≤ j * step := Nat.mul_le_mul_left _ hstep
    omega

/-- If no round has a plan, the problem has no solution. -/
theorem C80_push_unsolvable_partial (P : Problem) (vars : List (Nat × Nat)) (nA nT pgb step : Nat) (hin : PushInput P vars nA nT)
    (hd : PrecsDiffer P vars nA) (hpgb : 1 ≤ pgb) (hstep : 1 ≤ step) :
    (∀ j T, pushTranslate P vars nA nT (pgb + j * step) true zeroJunk = some T → ∀ ρ, ¬ T.Plan ρ) ↔ ∀ π, ¬ IsSolution P π := by
  obtain ⟨k1, k2⟩ := C80_push_rounds_partial P vars nA nT pgb step hin hd hpgb hstep
  refine ⟨fun h π hs => ?_, fun h j T hT ρ hρ => ?_⟩
  · obtain ⟨i, hi⟩ := k2 π hs
    obtain ⟨T, ρ, h1, h2, -⟩ := hi i (le_refl _)
    exact h i T h1 ρ h2
  · obtain ⟨T', hT', k⟩ := k1 j
    rw [hT] at hT'
    cases hT'
    exact h _ (k ρ hρ)

/-! ## A problem that meets the hypotheses -/

/-- Executing operators given by their names. -/
def execLab (T : CTask PLab) : List PLab → Val → Option (List (PLab × COp) × Val)
  | [], σ => some ([], σ)
  | l :: r, σ => match T.ops.find? fun x => x.1 == l with
    | none => none
    | some x => if x.2.App σ then (execLab T r (x.2.res σ)).map fun y => (x :: y.1, y.2) else none

theorem execLab_run {T : CTask PLab} : ∀ {l : List PLab} {σ σ' : Val} {ρ : List (PLab × COp)}, execLab T l σ = some (ρ, σ') →
    CRun T σ ρ σ' := by
  intro l
  induction l with
  | nil =>
    intro σ σ' ρ h
    simp only [execLab, Option.some.injEq, Prod.mk.injEq] at h
    obtain ⟨rfl, rfl⟩ := h
    exact .nil _
  | cons i r ih =>
    intro σ σ' ρ h
    rw [execLab] at h
    cases hx : T.ops.find? fun x => x.1 == i with
    | none => simp [hx] at h
    | some x =>
      rw [hx] at h
      simp only at h
      split at h
      · rename_i happ
        obtain ⟨y, hy, e⟩ := Option.map_eq_some_iff.1 h
        cases e
        exact .cons (List.mem_of_find?_eq_some hx) happ (ih hy)
      · cases h

/-- Executing the operators leads to the goal, and the plan has the actions `π`. -/
def planLab (T : CTask PLab) (l : List PLab) (π : List Nat) : Bool := match execLab T l T.start with
  | none => false
  | some y => T.goal.all (fun g => y.2 g.1 == g.2) && decide (pushActs y.1 = π)

theorem planLab_plan {T : CTask PLab} {l : List PLab} {π : List Nat} (h : planLab T l π = true) : ∃ ρ, T.Plan ρ ∧ pushActs ρ = π := by
  rw [planLab] at h
  cases he : execLab T l T.start with
  | none => simp [he] at h
  | some y =>
    rw [he] at h
    simp only [Bool.and_eq_true, List.all_eq_true, beq_iff_eq, decide_eq_true_eq] at h
    exact ⟨y.1, ⟨y.2, execLab_run he, h.1⟩, h.2⟩

theorem psP_push : PushInput psP [(0, 0), (1, 1)] 3 6 where
  wf := psP_wf
  sas := psP_in.sas
  fits := psP_in.fits
  prim _ := rfl
  nA_le := by omega
  head_lt := psP_in.head_lt
  sub_lt := psP_in.sub_lt
  init_lt := by simp [psP]
  top m _ := by
    simp only [psP]
    split_ifs <;> simp [TopOrd]

/-- The translation of this problem has a plan in which a task is decomposed before the one in the cell below it. -/
theorem psP_push_plan : ∃ T ρ, pushTranslate psP [(0, 0), (1, 1)] 3 6 4 true zeroJunk = some T ∧ T.Plan ρ ∧ pushActs ρ = [1, 0, 1, 0] := by
  obtain ⟨ρ, h1, h2⟩ := planLab_plan (T := (pushTranslate psP [(0, 0), (1, 1)] 3 6 4 true zeroJunk).get (by decide +kernel))
    (l := [.meth 0 0, .move 3 2, .move 4 3, .meth 1 1, .meth 2 2, .prim 1 2, .move 0 3, .prim 0 2, .meth 2 1, .prim 1 1, .prim 0 0])
    (π := [1, 0, 1, 0]) (by decide +kernel)
  exact ⟨_, ρ, (Option.some_get _).symm, h1, h2⟩

/-- The hypotheses of C79 and C80 are met by a problem with a solution. -/
example : PushInput psP [(0, 0), (1, 1)] 3 6 ∧ PrecsDiffer psP [(0, 0), (1, 1)] 3 ∧ IsSolution psP [1, 0, 1, 0] ∧
    BoundedSolution psP 4 [1, 0, 1, 0] := by
  obtain ⟨T, ρ, h1, h2, h3⟩ := psP_push_plan
  obtain ⟨T', hT', -, k1, k2⟩ := C79_push_translate_partial psP _ 3 6 4 psP_push psP_differ (by omega)
  rw [h1] at hT'
  cases hT'
  exact ⟨psP_push, psP_differ, h3 ▸ (k1 ρ h2).1, (k2 _).1 ⟨ρ, h2, h3⟩⟩

/-! ## Where the code is wrong -/

/-- The initial task 2 has one method with the actions 0 and 1, which are ordered if `o` holds.  There is one fact that no action
changes; it holds initially if `s`, and is a goal if `g`. -/
def psQ (o s g : Bool) : Problem where
  numFacts := 1
  prim t := decide (t < 2)
  prec _ := []
  add _ := []
  del _ := []
  cost _ := 1
  numMethods := 1
  head _ := 2
  sub _ := [0, 1]
  ord _ := if o then [(0, 1)] else []
  init := 2
  s0 := if s then [0] else []
  goal := if g then [0] else []

theorem psQ_wf (o s g : Bool) : (psQ o s g).WF where
  ord_lt := by cases o <;> simp [psQ]
  ord_acyclic m _ := ⟨id, by cases o <;> simp [psQ]⟩
  sub_ne := by simp [psQ]
  head_abs := by simp [psQ]
  init_abs := by simp [psQ]
  prec_lt := by simp [psQ]
  add_lt := by simp [psQ]
  del_lt := by simp [psQ]
  s0_lt := by cases s <;> simp [psQ]
  goal_lt := by cases g <;> simp [psQ]

/-- The problem meets the hypotheses of C79. -/
theorem psQ_push (o s g : Bool) : PushInput (psQ o s g) [(0, 0)] 2 3 where
  wf := psQ_wf o s g
  sas :=
    { ne := by simp
      contig := by simp [Contig, psQ]
      inv := by
        intro π s _ v hv hlt
        simp only [List.mem_cons, List.not_mem_nil, or_false] at hv
        subst hv
        simp at hlt
      noClash := by simp [psQ]
      sorted := by cases s <;> simp [psQ] }
  fits := by
    intro _ f hf i hi
    cases s <;> simp [psQ] at hf
    subst hf
    simp [varIdx] at hi
    simp [← hi, psQ]
  prim _ := rfl
  nA_le := by omega
  head_lt m _ := by simp [psQ]
  sub_lt m _ t ht := by simp [psQ] at ht; omega
  init_lt := by simp [psQ]
  top m _ := by cases o <;> simp [psQ, TopOrd]

theorem psQ_differ (o s g : Bool) : PrecsDiffer (psQ o s g) [(0, 0)] 2 := by
  intro a _ f hf
  simp [psQ] at hf

/-- The tree of the problem. -/
theorem psQ_tree {o s g : Bool} {tr : Tree} (hv : Valid (psQ o s g) 2 tr) :
    ∃ cs : Nat → Tree, tr = .node 0 cs ∧ cs 0 = .leaf 0 ∧ cs 1 = .leaf 1 := by
  generalize ht : 2 = t at hv
  cases hv with
  | leaf hp =>
    subst ht
    simp [psQ] at hp
  | @node m cs hm hc =>
    obtain rfl : m = 0 := by simpa [psQ] using hm
    have leaf : ∀ a, a < 2 → ∀ tr, Valid (psQ o s g) a tr → tr = .leaf a := by
      intro a ha tr h
      generalize hu : a = u at h
      cases h with
      | leaf => rfl
      | node => simp [psQ] at hu; omega
    exact ⟨cs, rfl, leaf 0 (by omega) _ (hc 0 0 rfl), leaf 1 (by omega) _ (hc 1 1 rfl)⟩

theorem psQ_leaf {o s g : Bool} {cs : Nat → Tree} (h0 : cs 0 = .leaf 0) (h1 : cs 1 = .leaf 1) {p : List Nat} {a : Nat} :
    LeafAt (psQ o s g) (.node 0 cs) p a ↔ a < 2 ∧ p = [a] := by
  constructor
  · intro h
    cases h with
    | @child _ _ i p a hi h =>
      have : i < 2 := hi
      interval_cases i
      · rw [h0] at h
        cases h
        exact ⟨by omega, rfl⟩
      · rw [h1] at h
        cases h
        exact ⟨by omega, rfl⟩
  · rintro ⟨ha, rfl⟩
    interval_cases a
    · exact .child (by simp [psQ]) (by rw [h0]; exact .here)
    · exact .child (by simp [psQ]) (by rw [h1]; exact .here)

theorem psQ_order {s g : Bool} : ¬ IsSolution (psQ true s g) [1, 0] := by
  rintro ⟨k, tr, hv, -, ⟨occ, hl⟩, -⟩
  obtain ⟨cs, rfl, h0, h1⟩ := psQ_tree hv
  have hlab := hl.labels
  have hord := hl.order
  cases hlab with
  | cons ha hb =>
    cases hb with
    | cons hb hc =>
      cases hc
      obtain rfl := ((psQ_leaf h0 h1).1 ha).2
      obtain rfl := ((psQ_leaf h0 h1).1 hb).2
      have := (List.pairwise_cons.1 hord).1 [0] (by simp)
      exact this (.diff (.single (by simp [Problem.OrdRel, psQ])))

/-- The fact never changes. -/
theorem psQ_exec {o s g : Bool} {σ σ' : State} {π : List Nat} (h : Exec (psQ o s g) σ π σ') : ∀ f, σ' f ↔ σ f := by
  induction h with
  | nil => exact fun _ => Iff.rfl
  | @cons σ σ' a π _ _ ih =>
    intro f
    rw [ih f]
    simp [Problem.result, psQ]

theorem psQ_goal {o : Bool} {π : List Nat} : ¬ IsSolution (psQ o false true) π := by
  rintro ⟨k, tr, -, -, -, σ, hx, hg⟩
  have := (psQ_exec hx 0).1 (hg 0 (by simp [psQ]))
  simp [Problem.initState, psQ] at this

theorem psQ_solution : IsSolution (psQ true true true) [0, 1] := by
  refine ⟨_, .node 0 fun i => .leaf i, ?_, rfl, ⟨[[0], [1]], ?_⟩, _, .cons (by simp [Problem.Applicable, psQ])
    (.cons (by simp [Problem.Applicable, psQ]) (.nil _)), ?_⟩
  · refine Valid.node (P := psQ true true true) (m := 0) (by simp [psQ]) fun i t hi => ?_
    have hlt := (List.getElem?_eq_some_iff.1 hi).1
    have : i < 2 := hlt
    interval_cases i <;> simp [psQ] at hi <;> subst hi <;> exact .leaf (by simp [psQ])
  · refine ⟨by simp, fun p => ?_, ?_, .cons ((psQ_leaf rfl rfl).2 ⟨by omega, rfl⟩) (.cons ((psQ_leaf rfl rfl).2 ⟨by omega, rfl⟩) .nil)⟩
    · simp only [psQ_leaf (cs := fun i => .leaf i) rfl rfl]
      constructor
      · intro h
        simp only [List.mem_cons, List.not_mem_nil, or_false] at h
        rcases h with rfl | rfl
        · exact ⟨0, by omega, rfl⟩
        · exact ⟨1, by omega, rfl⟩
      · rintro ⟨a, ha, rfl⟩
        interval_cases a <;> simp
    · simp only [List.pairwise_cons, List.mem_singleton, forall_eq, List.not_mem_nil, false_imp_iff, implies_true, List.Pairwise.nil,
        and_true]
      intro h
      cases h with
      | diff h =>
        have : ∀ i j, Relation.TransGen ((psQ true true true).OrdRel 0) i j → i < j := by
          intro i j h
          induction h with
          | single h => simp [Problem.OrdRel, psQ] at h; omega
          | tail _ h ih => simp [Problem.OrdRel, psQ] at h; omega
        have := this _ _ h
        omega
  · intro f hf
    rw [psQ_exec (.cons (by simp [Problem.Applicable, psQ]) (.cons (by simp [Problem.Applicable, psQ]) (.nil _))) f]
    simpa [Problem.initState, psQ] using hf

/-- The values after an operator with conditional effects. -/
def resCL (o : COp) (l : List Nat) : List Nat :=
  ((o.cond.filter fun e => e.1.all fun c => lv l c.1 == c.2).map Prod.snd).foldl (fun l e => l.set e.1 e.2) (resL o.base l)

theorem foldl_set_lv (E : List (Nat × Nat)) (l : List Nat) (h : ∀ e ∈ E, e.1 < l.length) :
    lv (E.foldl (fun l e => l.set e.1 e.2) l) = E.foldl (fun σ e => Function.update σ e.1 e.2) (lv l) := by
  induction E generalizing l with
  | nil => rfl
  | cons e E ih =>
    rw [List.foldl_cons, List.foldl_cons, ih]
    · congr 1
      funext i
      have he := h e (.head _)
      by_cases hi : i = e.1
      · subst hi
        simp [lv, he]
      · rw [Function.update_of_ne hi, lv, lv, List.getElem?_set_ne (Ne.symm hi)]
    · intro e' he'
      rw [List.length_set]
      exact h e' (.tail _ he')

theorem resL_length (o : SOp) (l : List Nat) : (resL o l).length = l.length := by
  rw [resL]
  generalize o.eff = E
  induction E generalizing l with
  | nil => rfl
  | cons e E ih => rw [List.foldl_cons, ih, List.length_set]

theorem resCL_eq (o : COp) (l : List Nat) (h : ∀ e ∈ o.base.eff, e.1 < l.length) (h' : ∀ e ∈ o.cond, e.2.1 < l.length) :
    lv (resCL o l) = o.res (lv l) := by
  rw [resCL, COp.res, foldl_set_lv, resL_eq o.base l h]
  intro e he
  obtain ⟨e', he', rfl⟩ := List.mem_map.1 he
  rw [resL_length]
  exact h' e' (List.mem_filter.1 he').1

/-- The set of states contains the initial one, no goal state, and is closed. -/
def closedSetC (T : CTask PLab) (S : List (List Nat)) : Bool :=
  S.contains T.init && S.all fun l => T.goal.any (fun g => lv l g.1 != g.2) &&
    T.ops.all fun x => (x.2.base.eff.all (fun e => decide (e.1 < l.length)) && x.2.cond.all fun e => decide (e.2.1 < l.length)) &&
      (!decide (x.2.App (lv l)) || S.contains (resCL x.2 l))

theorem closedSetC_noPlan {T : CTask PLab} {S : List (List Nat)} (h : closedSetC T S = true) (ρ : List (PLab × COp)) : ¬ T.Plan ρ := by
  simp only [closedSetC, Bool.and_eq_true, List.contains_iff_mem, List.all_eq_true, List.any_eq_true, bne_iff_ne, decide_eq_true_eq,
    Bool.or_eq_true, Bool.not_eq_true', decide_eq_false_iff_not] at h
  obtain ⟨h0, hS⟩ := h
  rintro ⟨σ, hrun, hg⟩
  have key : ∀ σ₀ ρ σ, CRun T σ₀ ρ σ → (∃ l ∈ S, σ₀ = lv l) → ∃ l ∈ S, σ = lv l := by
    intro σ₀ ρ σ hr
    induction hr with
    | nil => exact id
    | @cons σ σ' x ρ hx happ _ ih =>
      rintro ⟨l, hl, rfl⟩
      obtain ⟨h1, h2⟩ := (hS l hl).2 x hx
      exact ih ⟨resCL x.2 l, h2.resolve_left fun hn => hn happ, (resCL_eq _ _ h1.1 h1.2).symm⟩
  obtain ⟨l, hl, rfl⟩ := key _ _ _ hrun ⟨_, h0, rfl⟩
  obtain ⟨g, hg1, hg2⟩ := (hS l hl).1
  exact hg2 (hg g hg1)

/-- `BaseCondEffects` (translationController.cpp 38-40, 69: the same translation, written without its conditional effects): the orderings of the methods are
lost, there is a plan that is no solution. -/
theorem C79_no_cond_violated : PushInput (psQ true false false) [(0, 0)] 2 3 ∧ PrecsDiffer (psQ true false false) [(0, 0)] 2 ∧
    ∃ T ρ, pushTranslate (psQ true false false) [(0, 0)] 2 3 2 false zeroJunk = some T ∧ T.Plan ρ ∧ pushActs ρ = [1, 0] ∧
      ¬ IsSolution (psQ true false false) (pushActs ρ) := by
  refine ⟨psQ_push _ _ _, psQ_differ _ _ _, ?_⟩
  obtain ⟨ρ, h1, h2⟩ := planLab_plan (T := (pushTranslate (psQ true false false) [(0, 0)] 2 3 2 false zeroJunk).get (by decide +kernel))
    (l := [.meth 0 0, .prim 1 0, .move 0 1, .prim 0 0]) (π := [1, 0]) (by decide +kernel)
  exact ⟨_, ρ, (Option.some_get _).symm, h1, h2, fun hs => psQ_order (h2 ▸ hs)⟩

/-- The memory that is not initialised: there are contents with which the translation of a problem without solutions has a plan, such
with which that of a problem with a solution has none, and such with which the array of the facts is read out of bounds. -/
theorem C79_uninit_violated :
    (PushInput (psQ true false true) [(0, 0)] 2 3 ∧ (∀ π, ¬ IsSolution (psQ true false true) π) ∧
      ∃ junk T ρ, pushTranslate (psQ true false true) [(0, 0)] 2 3 3 true junk = some T ∧ T.Plan ρ) ∧
    (PushInput (psQ true true true) [(0, 0)] 2 3 ∧ BoundedSolution (psQ true true true) 3 [0, 1] ∧
      ∃ junk T, pushTranslate (psQ true true true) [(0, 0)] 2 3 3 true junk = some T ∧ ∀ ρ, ¬ T.Plan ρ) ∧
    ∃ junk, pushTranslate (psQ true true true) [(0, 0)] 2 3 3 true junk = none := by
  refine ⟨⟨psQ_push _ _ _, fun _ => psQ_goal, fun _ _ => [(1, 0), (1, 0)], ?_⟩, ⟨psQ_push _ _ _, ?_, fun _ _ => [(0, 1), (0, 1)],
    (pushTranslate (psQ true true true) [(0, 0)] 2 3 3 true fun _ _ => [(0, 1), (0, 1)]).get (by decide +kernel),
    (Option.some_get _).symm, ?_⟩, fun _ _ => [(1000, 0), (1000, 0)], ?_⟩
  · obtain ⟨ρ, h1, -⟩ := planLab_plan
      (T := (pushTranslate (psQ true false true) [(0, 0)] 2 3 3 true fun _ _ => [(1, 0), (1, 0)]).get (by decide +kernel))
      (l := [.meth 0 0, .move 0 2, .prim 0 1, .prim 1 0]) (π := [0, 1]) (by decide +kernel)
    exact ⟨_, ρ, (Option.some_get _).symm, h1⟩
  · obtain ⟨T, hT, -, -, k⟩ := C79_push_translate_partial (psQ true true true) _ 2 3 3 (psQ_push _ _ _) (psQ_differ _ _ _) (by omega)
    obtain ⟨ρ, h1, h2⟩ := planLab_plan
      (T := (pushTranslate (psQ true true true) [(0, 0)] 2 3 3 true zeroJunk).get (by decide +kernel))
      (l := [.meth 0 0, .move 0 2, .prim 0 1, .prim 1 0]) (π := [0, 1]) (by decide +kernel)
    refine (k _).1 ⟨ρ, ?_, h2⟩
    have : T = (pushTranslate (psQ true true true) [(0, 0)] 2 3 3 true zeroJunk).get (by decide +kernel) := by simp [hT]
    rw [this]
    exact h1
  · exact closedSetC_noPlan (S := [[0, 3, 0, 0, 0, 0, 0, 1, 0, 0, 0, 0, 0], [0, 2, 0, 1, 0, 1, 0, 1, 0, 1, 0, 0, 0],
      [1, 2, 1, 0, 1, 0, 0, 1, 1, 0, 0, 0, 0], [1, 2, 0, 0, 0, 0, 0, 1, 0, 0, 0, 0, 0], [1, 0, 0, 0, 0, 0, 0, 0, 0, 0, 0, 0, 0]])
      (by decide +kernel)
  · have : (pushTranslate (psQ true true true) [(0, 0)] 2 3 3 true fun _ _ => [(1000, 0), (1000, 0)]).isNone = true := by decide +kernel
    exact Option.isNone_iff_eq_none.1 this

/-- `reorderTasks` loses a subtask and executes another one twice: the translated problem has a plan that is no solution. -/
theorem C79_lost_task_violated : ∃ T ρ, pushTranslate (psL false) [(0, 0)] 3 4 3 true zeroJunk = some T ∧ T.Plan ρ ∧
    pushActs ρ = [1, 1, 2] ∧ ¬ IsSolution (psL false) (pushActs ρ) := by
  obtain ⟨ρ, h1, h2⟩ := planLab_plan (T := (pushTranslate (psL false) [(0, 0)] 3 4 3 true zeroJunk).get (by decide +kernel))
    (l := [.meth 0 0, .prim 1 2, .prim 1 1, .prim 2 0]) (π := [1, 1, 2]) (by decide +kernel)
  refine ⟨_, ρ, (Option.some_get _).symm, h1, h2, fun hs => ?_⟩
  have := first_mem rfl (fun _ _ _ => rfl) (by simp [psL]) hs
  rw [h2] at this
  simp at this

/-- If the lost action is needed, a problem with a solution has no plan with bound 3, the size of its largest network. -/
theorem C80_lost_task_violated : IsSolution (psL true) [0, 1, 2] ∧
    ∃ T, pushTranslate (psL true) [(0, 0)] 3 4 3 true zeroJunk = some T ∧ ∀ ρ, ¬ T.Plan ρ := by
  refine ⟨psL_solution, (pushTranslate (psL true) [(0, 0)] 3 4 3 true zeroJunk).get (by decide +kernel), (Option.some_get _).symm, ?_⟩
  exact closedSetC_noPlan (S := [[1, 4, 0, 0, 0, 0, 0, 1, 0, 0, 0, 0, 0], [1, 3, 2, 2, 0, 0, 1, 1, 1, 1, 0, 0, 0],
    [1, 0, 2, 2, 0, 0, 1, 0, 1, 1, 0, 0, 0], [1, 2, 0, 2, 0, 1, 0, 1, 0, 1, 0, 0, 0], [1, 2, 2, 0, 1, 0, 0, 1, 1, 0, 0, 0, 0]])
    (by decide +kernel)

end Verif.Props
