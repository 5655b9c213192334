import Verif.PushSim

/-! # Plans of the translation of partially ordered problems and progression -/

namespace Verif.Sas

open Verif.Htn

/-- What is written for a problem. -/
structure PushTask (P : Problem) (vars : List (Nat × Nat)) (nA nT B : Nat) (T : CTask PLab) : Prop where
  ops : ∀ x, x ∈ T.ops ↔ (∃ a j, a < nA ∧ j < B ∧ x = (.prim a j, (opAct P vars B a j).toC vars.length B)) ∨
    (∃ m j, m < P.numMethods ∧ (P.sub m).length + j ≤ B ∧ x = (.meth m j, (opMeth P B m j).toC vars.length B)) ∨
    ∃ t j, t < nT ∧ 0 < j ∧ j < B ∧ x = (.move t j, (opMove B t j).toC vars.length B)
  goal : ∀ σ, T.Goal σ ↔ Holds σ (P.goal.filterMap (conv vars)) ∧ ∀ j < B, view vars.length B σ (.task j) = 0

theorem CRun.append {L : Type} {T : CTask L} {σ σ' σ'' : Val} {ρ ρ' : List (L × COp)} (h : CRun T σ ρ σ') (h' : CRun T σ' ρ' σ'') :
    CRun T σ (ρ ++ ρ') σ'' := by
  induction h with
  | nil => exact h'
  | cons h1 h2 _ ih => exact .cons h1 h2 (ih h')

section

variable {P : Problem} {vars : List (Nat × Nat)} {nA nT B : Nat} {T : CTask PLab}

/-- A network fits into the cells. -/
theorem QEnc.card {σ : Val} {s : State} {I : Finset Nat} {lab : Nat → Nat} {R : Nat → Nat → Prop} {c : Nat → Nat}
    (he : QEnc vars nT B σ s I lab R c) : I.card ≤ B := by
  have := Finset.card_le_card_of_injOn (s := I) (t := Finset.range B) c (fun u hu => by
    simpa using he.lt u hu) (fun u hu v hv e => he.inj u hu v hv e)
  simpa using this

/-- Every plan of the translated problem is a progression. -/
theorem push_sound (hin : PushInput P vars nA nT) (hf : ∀ a < nA, PrecFun vars P a) (hT : PushTask P vars nA nT B T) {σ σ' : Val}
    {ρ : List (PLab × COp)} (h : CRun T σ ρ σ') : ∀ {s : State} {I : Finset Nat} {lab : Nat → Nat} {R : Nat → Nat → Prop} {c : Nat → Nat},
    QEnc vars nT B σ s I lab R c → Reach P s → T.Goal σ' → ProgB P B I lab R s (pushActs ρ) := by
  induction h with
  | nil σ =>
    intro s I lab R c he _ hg
    obtain ⟨h1, h2⟩ := (hT.goal _).1 hg
    have hI : I = ∅ := by
      refine Finset.eq_empty_of_forall_notMem fun u hu => ?_
      have := he.task u hu
      have := h2 (c u) (he.lt u hu)
      omega
    subst hI
    exact .done ((he.corr.holds hin.sas.contig hin.wf.goal_lt).1 h1)
  | @cons σ σ' x ρ hx happ _ ih =>
    intro s I lab R c he hr hg
    rcases (hT.ops x).1 hx with ⟨a, j, ha, hj, rfl⟩ | ⟨m, j, hm, hj, rfl⟩ | ⟨t, j, ht, hj0, hj, rfl⟩
    · obtain ⟨h1, u, hu, rfl, rfl, h4, -⟩ := (opAct_app hin (hf a ha) hj he).1 happ
      have hE := (opAct_step hin (hf _ ha) he hu h4 hr h1).1
      have hp := ih hE (hr.step h1) hg
      have : pushActs ((PLab.prim (lab u) (c u), (opAct P vars B (lab u) (c u)).toC vars.length B) :: ρ) = lab u :: pushActs ρ := rfl
      rw [this]
      exact .act hu h4 (by rw [hin.prim]; simpa using ha) h1 hp
    · obtain ⟨⟨u, hu, rfl, h3, h4, -⟩, h5⟩ := (opMeth_app hin hm hj he).1 happ
      obtain ⟨b, I', lab', R', hS⟩ := exists_refines (P := P) I lab R u m
      obtain ⟨⟨c', hE, -⟩, -⟩ := opMeth_step hin hm he hu h4 hj h5 hS
      have : pushActs ((PLab.meth m (c u), (opMeth P B m (c u)).toC vars.length B) :: ρ) = pushActs ρ := rfl
      rw [this]
      exact .dec hu h4 hm h3.symm hS hE.card (ih hE hr hg)
    · obtain ⟨u, hu, rfl, rfl, h4⟩ := opMove_app_imp hin.sas.ne he hj0 hj happ
      exact ih (opMove_step hin.sas.ne he hu hj0 h4).1 hr hg

/-- A plan costs what its actions cost. -/
theorem push_cost (hT : PushTask P vars nA nT B T) {σ σ' : Val} {ρ : List (PLab × COp)} (h : CRun T σ ρ σ') :
    cplanCost ρ = ((pushActs ρ).map P.cost).sum := by
  induction h with
  | nil => rfl
  | @cons σ σ' x ρ hx _ _ ih =>
    have h1 : cplanCost (x :: ρ) = x.2.base.cost + cplanCost ρ := by simp [cplanCost]
    rw [h1, ih]
    rcases (hT.ops x).1 hx with ⟨a, j, ha, hj, rfl⟩ | ⟨m, j, hm, hj, rfl⟩ | ⟨t, j, ht, hj0, hj, rfl⟩
    · have : pushActs ((PLab.prim a j, (opAct P vars B a j).toC vars.length B) :: ρ) = a :: pushActs ρ := rfl
      rw [this]
      rfl
    · have : pushActs ((PLab.meth m j, (opMeth P B m j).toC vars.length B) :: ρ) = pushActs ρ := rfl
      rw [this]
      exact Nat.zero_add _
    · have : pushActs ((PLab.move t j, (opMove B t j).toC vars.length B) :: ρ) = pushActs ρ := rfl
      rw [this]
      exact Nat.zero_add _

/-! ## Moving the tasks to the lowest cells -/

/-- No task has to be moved. -/
def MovZero (nV B : Nat) (σ : Val) : Prop := ∀ l < B, view nV B σ (.mov l) = 0

/-- The task of cell `q` can be moved down until there is a task below it. -/
theorem push_slide (hne : vars ≠ []) (hT : PushTask P vars nA nT B T) {I : Finset Nat} {lab : Nat → Nat} {R : Nat → Nat → Prop} {s : State} :
    ∀ (q : Nat) {σ : Val} {c : Nat → Nat} {u : Nat}, QEnc vars nT B σ s I lab R c → u ∈ I → c u = q → 0 < q → (∀ v ∈ I, c v ≠ q - 1) →
    (∀ l < B, l ≠ q → view vars.length B σ (.mov l) = 0) →
    ∃ ρ σ' c', CRun T σ ρ σ' ∧ pushActs ρ = [] ∧ QEnc vars nT B σ' s I lab R c' ∧ MovZero vars.length B σ' ∧
      c' u < q ∧ ∀ v, v ≠ u → c' v = c v := by
  intro q
  induction q with
  | zero =>
    intro σ c u _ _ _ h
    omega
  | succ q ih =>
    intro σ c u he hu hq _ hfree hmov
    have hj := he.lt u hu
    rw [← hq] at hfree hmov
    obtain ⟨hE, m1, m2, m3, m4⟩ := opMove_step hne he hu (by omega) hfree
    have happ := opMove_app_of hne he hu (by omega) hfree hmov
    have hop : ((PLab.move (lab u) (c u)), (opMove B (lab u) (c u)).toC vars.length B) ∈ T.ops :=
      (hT.ops _).2 (.inr (.inr ⟨lab u, c u, he.lab_lt u hu, by omega, hj, rfl⟩))
    have hcu : Function.update c u (c u - 1) u = q := by rw [Function.update_self]; omega
    have hcv : ∀ v, v ≠ u → Function.update c u (c u - 1) v = c v := fun v hv => Function.update_of_ne hv _ _
    have hrest : ∀ l < B, l ≠ q →
        view vars.length B (((opMove B (lab u) (c u)).toC vars.length B).res σ) (.mov l) = 0 := by
      intro l hl hlq
      by_cases e : l = c u
      · rw [e, m1]
      · rw [m2 l hl e (by omega), hmov l hl e]
    have hstop : view vars.length B (((opMove B (lab u) (c u)).toC vars.length B).res σ) (.mov q) = 0 →
        ∃ ρ σ' c', CRun T σ ρ σ' ∧ pushActs ρ = [] ∧ QEnc vars nT B σ' s I lab R c' ∧ MovZero vars.length B σ' ∧
          c' u < q + 1 ∧ ∀ v, v ≠ u → c' v = c v := by
      intro h0
      refine ⟨[_], _, _, .cons hop happ (.nil _), rfl, hE, fun l hl => ?_, by omega, hcv⟩
      by_cases e : l = q
      · rw [e, h0]
      · exact hrest l hl e
    by_cases hq0 : q = 0
    · apply hstop
      have h1 := m4 (by omega)
      rw [hq0, h1]
      exact hmov 0 (by omega) (by omega)
    · by_cases hb : ∃ v ∈ I, c v = c u - 2
      · obtain ⟨v, hv, hcv2⟩ := hb
        apply hstop
        have := m3 (by omega) (by rw [← hcv2]; exact he.occ v hv)
        rw [show q = c u - 1 by omega]
        exact this
      · obtain ⟨ρ, σ', c', r1, r2, r3, r4, r5, r6⟩ := ih hE hu hcu (by omega) (by
          intro v hv e
          by_cases evu : v = u
          · rw [evu, hcu] at e
            omega
          · rw [hcv v evu] at e
            exact hb ⟨v, hv, by omega⟩) hrest
        refine ⟨_ :: ρ, σ', c', .cons hop happ r1, r2, r3, r4, by omega, fun v hv => ?_⟩
        rw [r6 v hv, hcv v hv]

/-- The tasks can be moved such that the occupied cells are the lowest ones. -/
theorem push_compact (hne : vars ≠ []) (hT : PushTask P vars nA nT B T) {I : Finset Nat} {lab : Nat → Nat} {R : Nat → Nat → Prop} {s : State} :
    ∀ (k : Nat) {σ : Val} {c : Nat → Nat}, ∑ u ∈ I, c u = k → QEnc vars nT B σ s I lab R c → MovZero vars.length B σ →
    ∃ ρ σ' c', CRun T σ ρ σ' ∧ pushActs ρ = [] ∧ QEnc vars nT B σ' s I lab R c' ∧ MovZero vars.length B σ' ∧
      (∀ u ∈ I, c' u < I.card) ∧ ∀ q < I.card, ∃ u ∈ I, c' u = q := by
  intro k
  induction k using Nat.strong_induction_on with
  | _ k ih =>
    intro σ c hk he hmov
    by_cases hgap : ∃ u ∈ I, 0 < c u ∧ ∀ v ∈ I, c v ≠ c u - 1
    · obtain ⟨u, hu, h0, hfree⟩ := hgap
      obtain ⟨ρ, σ', c', r1, r2, r3, r4, r5, r6⟩ := push_slide hne hT (c u) he hu rfl h0 hfree fun l hl _ => hmov l hl
      have hsum : ∑ v ∈ I, c' v < k := by
        rw [← hk]
        refine Finset.sum_lt_sum (fun v _ => ?_) ⟨u, hu, r5⟩
        by_cases e : v = u
        · rw [e]
          exact le_of_lt r5
        · rw [r6 v e]
      obtain ⟨ρ', σ'', c'', q1, q2, q3, q4, q5⟩ := ih _ hsum rfl r3 r4
      exact ⟨ρ ++ ρ', σ'', c'', r1.append q1, by rw [pushActs, List.filterMap_append]; exact (congrArg₂ _ r2 q2).trans rfl, q3, q4, q5⟩
    · have hdown : ∀ d, ∀ u ∈ I, ∃ v ∈ I, c v = c u - d := by
        intro d
        induction d with
        | zero => exact fun u hu => ⟨u, hu, rfl⟩
        | succ d ihd =>
          intro u hu
          obtain ⟨v, hv, e⟩ := ihd u hu
          by_cases h0 : c v = 0
          · exact ⟨v, hv, by omega⟩
          · by_contra hn
            exact hgap ⟨v, hv, by omega, fun w hw e' => hn ⟨w, hw, by omega⟩⟩
      have hlow : ∀ u ∈ I, c u < I.card := by
        intro u hu
        have hsub : Finset.range (c u + 1) ⊆ I.image c := by
          intro q hq
          have hq := Finset.mem_range.1 hq
          obtain ⟨v, hv, e⟩ := hdown (c u - q) u hu
          exact Finset.mem_image.2 ⟨v, hv, by omega⟩
        have h1 := Finset.card_le_card hsub
        have h2 := Finset.card_image_le (s := I) (f := c)
        rw [Finset.card_range] at h1
        omega
      refine ⟨[], σ, c, .nil _, rfl, he, hmov, hlow, fun q hq => ?_⟩
      have himg : I.image c = Finset.range I.card := by
        refine Finset.eq_of_subset_of_card_le (fun q hq => ?_) ?_
        · obtain ⟨u, hu, rfl⟩ := Finset.mem_image.1 hq
          exact Finset.mem_range.2 (hlow u hu)
        · rw [Finset.card_range, Finset.card_image_of_injOn (fun u hu v hv e => he.inj u hu v hv e)]
      have : q ∈ I.image c := by
        rw [himg]
        exact Finset.mem_range.2 hq
      obtain ⟨u, hu, e⟩ := Finset.mem_image.1 this
      exact ⟨u, hu, e⟩

theorem Refines.card {I I' : Finset Nat} {lab lab' : Nat → Nat} {R R' : Nat → Nat → Prop} {u m b : Nat}
    (hS : Refines P I lab R u m b I' lab' R') (hu : u ∈ I) : I'.card = I.card - 1 + (P.sub m).length := by
  have : I' = I.erase u ∪ (Finset.range (P.sub m).length).image fun i => b + i := by
    ext v
    rw [hS.mem v, Finset.mem_union, Finset.mem_erase, Finset.mem_image]
    constructor
    · rintro (⟨h1, h2⟩ | ⟨i, hi, rfl⟩)
      · exact .inl ⟨h2, h1⟩
      · exact .inr ⟨i, Finset.mem_range.2 hi, rfl⟩
    · rintro (⟨h1, h2⟩ | ⟨i, hi, rfl⟩)
      · exact .inl ⟨h2, h1⟩
      · exact .inr ⟨i, Finset.mem_range.1 hi, rfl⟩
  rw [this, Finset.card_union_of_disjoint, Finset.card_erase_of_mem hu, Finset.card_image_of_injective _ (fun i j e => by simpa using e),
    Finset.card_range]
  rw [Finset.disjoint_left]
  intro v hv hv'
  obtain ⟨i, -, rfl⟩ := Finset.mem_image.1 hv'
  have := hS.fresh _ (Finset.mem_erase.1 hv).2
  omega

/-- Every progression within the bound is a plan. -/
theorem push_complete (hin : PushInput P vars nA nT) (hf : ∀ a < nA, PrecFun vars P a) (hT : PushTask P vars nA nT B T) {I : Finset Nat}
    {lab : Nat → Nat} {R : Nat → Nat → Prop} {s : State} {π : List Nat} (h : ProgB P B I lab R s π) :
    ∀ {σ : Val} {c : Nat → Nat}, QEnc vars nT B σ s I lab R c → MovZero vars.length B σ → Reach P s →
    ∃ ρ σ', CRun T σ ρ σ' ∧ T.Goal σ' ∧ pushActs ρ = π := by
  induction h with
  | done hg =>
    intro σ c he _ _
    refine ⟨[], σ, .nil _, (hT.goal σ).2 ⟨(he.corr.holds hin.sas.contig hin.wf.goal_lt).2 hg, fun j hj => he.task0 j hj fun u hu => ?_⟩, rfl⟩
    simp at hu
  | @act I lab R s u π hu hmin hp happ _ ih =>
    intro σ c he hmov hr
    obtain ⟨ρ, σ', c', r1, r2, r3, r4, r5, r6⟩ := push_compact hin.sas.ne hT _ rfl he hmov
    have ha : lab u < nA := by
      rw [hin.prim] at hp
      simpa using hp
    obtain ⟨hE, hM⟩ := opAct_step hin (hf _ ha) r3 hu hmin hr happ
    obtain ⟨ρ', σ'', q1, q2, q3⟩ := ih hE (fun l hl => (hM l hl).trans (r4 l hl)) (hr.step happ)
    refine ⟨ρ ++ (PLab.prim (lab u) (c' u), _) :: ρ', σ'', r1.append (.cons ?_ ?_ q1), q2, ?_⟩
    · exact (hT.ops _).2 (.inl ⟨lab u, c' u, ha, r3.lt u hu, rfl⟩)
    · exact (opAct_app hin (hf _ ha) (r3.lt u hu) r3).2 ⟨happ, u, hu, rfl, rfl, hmin, fun k hk => r6 k (by have := r5 u hu; omega)⟩
    · rw [pushActs, List.filterMap_append, ← pushActs, ← pushActs, r2, ← q3]
      rfl
  | @dec I I' lab lab' R R' s u m b π hu hmin hm hhead hS hcard _ ih =>
    intro σ c he hmov hr
    obtain ⟨ρ, σ', c', r1, r2, r3, r4, r5, r6⟩ := push_compact hin.sas.ne hT _ rfl he hmov
    have hpos := List.length_pos_iff.2 (hin.wf.sub_ne m hm)
    have h1 := r5 u hu
    rw [Refines.card hS hu] at hcard
    have hj : (P.sub m).length + c' u ≤ B := by omega
    have hfree : ∀ l < (P.sub m).length - 1, view vars.length B σ' (.task (B - 1 - l)) = 0 := by
      intro l hl
      refine r3.task0 _ (by omega) fun v hv e => ?_
      have := r5 v hv
      omega
    obtain ⟨⟨c'', hE, -⟩, hM⟩ := opMeth_step hin hm r3 hu hmin hj hfree hS
    obtain ⟨ρ', σ'', q1, q2, q3⟩ := ih hE (fun l hl => (hM l hl).trans (r4 l hl)) hr
    refine ⟨ρ ++ (PLab.meth m (c' u), _) :: ρ', σ'', r1.append (.cons ?_ ?_ q1), q2, ?_⟩
    · exact (hT.ops _).2 (.inr (.inl ⟨m, c' u, hm, hj, rfl⟩))
    · exact (opMeth_app hin hm hj r3).2 ⟨⟨u, hu, rfl, hhead.symm, hmin, fun k hk => r6 k (by omega)⟩, hfree⟩
    · rw [pushActs, List.filterMap_append, ← pushActs, ← pushActs, r2, ← q3]
      rfl

end

end Verif.Sas
