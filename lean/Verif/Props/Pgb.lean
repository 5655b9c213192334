import Verif.Pgb
import Verif.Props.Translate

/-! # Property theorem C69: the bound the translation starts with -/

namespace Verif.Props

open Verif.Htn Verif.Sas
open Verif.MinImplied (methodsOf mem_methodsOf startQueue minOver minOver_le_of_mem minOver_mem le_minOver)

/-- The result of `reorderTasks` that the computation of the bound reads. -/
def pgbReo (P : Problem) (m : Nat) : Reo := (reorder P.prim (P.sub m) (P.ord m)).getD ⟨[], 0⟩

/-- The whole computation: `Pgb.iter` until the work list is empty. -/
def PgbResult (B : Nat) (P : Problem) (nA : Nat) (s : Pgb.Vals) : Prop :=
  ∃ k, Pgb.iter B P true (pgbReo P) k (Pgb.start nA, startQueue P nA) = some (s, [])

section

variable {P : Problem} {vars : List (Nat × Nat)} {nA nT B : Nat}

theorem pgbReo_eq (hP : P.WF) (ht : TotOK P fun m => List.range (P.sub m).length) {m : Nat} (hm : m < P.numMethods) :
    pgbReo P m = ⟨(P.sub m).reverse, primLead P m⟩ := by
  rw [pgbReo, (C63_reorder_partial P hP ht m hm).1]
  rfl

theorem offOf_pgbReo (hP : P.WF) (ht : TotOK P fun m => List.range (P.sub m).length) {m : Nat} (hm : m < P.numMethods) :
    Pgb.offOf true (pgbReo P m) = primLead P m := by
  rw [pgbReo_eq hP ht hm]
  rfl

theorem primLead_le (m : Nat) : primLead P m ≤ (P.sub m).length := List.Sublist.length_le (List.takeWhile_sublist _)

theorem reoOK (hP : P.WF) (ht : TotOK P fun m => List.range (P.sub m).length) : Pgb.ReoOK P true (pgbReo P) where
  order m hm := by rw [pgbReo_eq hP ht hm]
  lead m hm := by rw [offOf_pgbReo hP ht hm]; exact primLead_le m

/-- **C69**: no solution can be worked off with a stack of fewer cells than the computed bound; so the translated problem has no plan for
smaller bounds, and starting with it skips nothing. -/
theorem C69_lower_bound (P : Problem) (vars : List (Nat × Nat)) (nA nT B : Nat) (hin : ToInput P vars nA nT) (s : Pgb.Vals)
    (hs : PgbResult B P nA s) : 1 ≤ Pgb.minBound P s ∧ (∀ pgb π, StackSolution P pgb π → Pgb.minBound P s ≤ pgb) ∧
      (NoConf P vars nA → ∀ pgb T, 1 ≤ pgb → pgb < Pgb.minBound P s → translate P vars nA nT pgb = some T → ∀ ρ, ¬ T.Plan ρ) := by
  have key : ∀ pgb π, StackSolution P pgb π → Pgb.minBound P s ≤ pgb := by
    rintro pgb π ⟨tr, hv, hf, -⟩
    obtain ⟨k, hk⟩ := hs
    have hl := Pgb.iter_lower (reoOK hin.wf hin.totOK) hin.prim hin.wf.head_abs hk
    have hf' := hf.congr (fun m hm => (offOf_pgbReo hin.wf hin.totOK hm).symm) hin.totOK hv
    have := hl.tree _ _ _ hv hf'
    have := hf.pos
    rw [Pgb.minBound]
    split <;> omega
  refine ⟨by rw [Pgb.minBound]; split <;> omega, key, fun hnc pgb T hp hlt hT ρ hρ => ?_⟩
  obtain ⟨π, hπ⟩ := (C65_translate_solvable P vars nA nT hin hnc pgb hp T hT).1 ⟨ρ, hρ⟩
  have := key pgb π hπ
  omega

/-- What the bound of a method with the given bounds of its subtasks is: the least number of cells such that the subtasks after the
leading actions fit, and each of them can be worked off above the later ones; a subtask that is the task of the method itself
counts as much as the cells above it once more. -/
def IsMethBound (P : Problem) (v : Nat → Nat) (m x : Nat) : Prop :=
  let above (y : Nat) := 1 ≤ y ∧ (P.sub m).length - primLead P m ≤ y ∧ ∀ p t, primLead P m ≤ p → (P.sub m)[p]? = some t →
    v t + ((P.sub m).length - 1 - p) ≤ y ∧ (t = P.head m → (P.sub m).length - primLead P m + (p - primLead P m) ≤ y)
  above x ∧ ∀ y, above y → x ≤ y

theorem isMethBound (hP : P.WF) (ht : TotOK P fun m => List.range (P.sub m).length) {m : Nat} (hm : m < P.numMethods) (v : Nat → Nat) :
    IsMethBound P v m (Pgb.pgbMeth (P.sub m).length (Pgb.offOf true (pgbReo P m)) (P.head m) (pgbReo P m).order v) := by
  have hle := primLead_le (P := P) m
  have key : ∀ y, Pgb.pgbMeth (P.sub m).length (Pgb.offOf true (pgbReo P m)) (P.head m) (pgbReo P m).order v ≤ y ↔
      (1 ≤ y ∧ (P.sub m).length - primLead P m ≤ y ∧ ∀ p t, primLead P m ≤ p → (P.sub m)[p]? = some t →
        v t + ((P.sub m).length - 1 - p) ≤ y ∧ (t = P.head m → (P.sub m).length - primLead P m + (p - primLead P m) ≤ y)) := by
    intro y
    rw [Pgb.pgbMeth_le, Pgb.Above, offOf_pgbReo hP ht hm]
    refine and_congr_right fun _ => and_congr_right fun _ => ⟨fun h p t hp hpt => ?_, fun h i hi => ?_⟩
    · have hlt := (List.getElem?_eq_some_iff.1 hpt).1
      obtain ⟨h1, h2⟩ := h ((P.sub m).length - 1 - p) (by omega)
      have := (reoOK hP ht).sub hm (i := (P.sub m).length - 1 - p) (by rw [offOf_pgbReo hP ht hm]; omega)
      rw [show (P.sub m).length - 1 - ((P.sub m).length - 1 - p) = p from by omega, hpt] at this
      rw [← Option.some.inj this] at h1 h2
      exact ⟨h1, fun e => by have := h2 e; omega⟩
    · have := (reoOK hP ht).sub hm (i := i) (by rw [offOf_pgbReo hP ht hm]; omega)
      obtain ⟨h1, h2⟩ := h _ _ (by omega) this
      exact ⟨by omega, fun e => by have := h2 e; omega⟩
  exact ⟨(key _).1 (le_refl _), fun y hy => (key y).2 hy⟩

theorem IsMethBound.unique {v : Nat → Nat} {m x y : Nat} (hx : IsMethBound P v m x) (hy : IsMethBound P v m y) : x = y :=
  le_antisymm (hx.2 _ hy.1) (hy.2 _ hx.1)

/-- The result solves the equations for the bounds, except that methods all of whose subtasks have bound 0 get bound 0; it is the
smallest solution. -/
structure PgbEqs (P : Problem) (nA : Nat) (s : Pgb.Vals) : Prop where
  act : ∀ a < nA, s.t a = 1
  meth : ∀ m < P.numMethods, IsMethBound P s.t m (s.m m) ∨ (s.m m = 0 ∧ ∀ t ∈ P.sub m, s.t t = 0)
  task : ∀ m < P.numMethods, s.t (P.head m) ≤ s.m m ∧ ∃ m' < P.numMethods, P.head m' = P.head m ∧ s.m m' = s.t (P.head m)

theorem C69_equations (P : Problem) (vars : List (Nat × Nat)) (nA nT B : Nat) (hin : ToInput P vars nA nT) (s : Pgb.Vals)
    (hs : PgbResult B P nA s) : PgbEqs P nA s ∧ ∀ w, PgbEqs P nA w → (∀ t, s.t t ≤ w.t t) ∧ ∀ m < P.numMethods, s.m m ≤ w.m m := by
  obtain ⟨k, hk⟩ := hs
  have hf := Pgb.iter_fix (reoOK hin.wf hin.totOK) hin.prim hin.wf.head_abs hk
  have hle : ∀ m, s.m m ≤ B := by
    refine Pgb.iter_invariant (B := B) (P := P) (isTo := true) (reo := pgbReo P) (fun s _ => ∀ m, s.m m ≤ B) ?_ k _ _ ?_ _ _ hk
    · intro s i q s' new h hw m
      cases i with
      | meth m' =>
        simp only [Pgb.work] at hw
        split at hw
        · cases hw
        · simp only [Option.some.injEq, Prod.mk.injEq] at hw
          rw [← hw.1]
          by_cases e : m = m'
          · subst e
            simp only [Function.update_self]
            omega
          · simpa [Function.update_of_ne e] using h m
      | task t =>
        simp only [Pgb.work, Option.some.injEq, Prod.mk.injEq] at hw
        rw [← hw.1]
        exact h m
    · intro m
      exact Nat.zero_le _
  refine ⟨⟨hf.act, fun m hm => ?_, fun m hm => ?_⟩, fun w hw => ?_⟩
  · rcases hf.m m hm with h | h | h
    · left
      rw [h]
      exact isMethBound hin.wf hin.totOK hm _
    · simp at h
    · exact .inr h
  · rcases hf.t m hm with h | h
    · have hmem : m ∈ methodsOf P (P.head m) := mem_methodsOf.2 ⟨hm, rfl⟩
      refine ⟨by rw [h]; exact minOver_le_of_mem _ _ hmem, ?_⟩
      obtain ⟨m', hm', e⟩ := minOver_mem (v := s.m) _ B (List.ne_nil_of_mem hmem) fun m' _ => hle m'
      obtain ⟨h1, h2⟩ := mem_methodsOf.1 hm'
      exact ⟨m', h1, h2, by rw [h, e]⟩
    · simp at h
  · have hg := Pgb.iter_least hin.prim hin.wf.head_abs (w := w) ⟨fun a ha => by rw [hw.act a ha], fun m hm => ?_, fun m hm => ?_⟩ hk
    · exact ⟨hg.wt, hg.wm⟩
    · rcases hw.meth m hm with h | h
      · exact .inl (le_of_eq ((isMethBound hin.wf hin.totOK hm _).unique h))
      · exact .inr h.2
    · obtain ⟨-, m', h1, h2, h3⟩ := hw.task m hm
      exact ⟨m', mem_methodsOf.2 ⟨h1, h2⟩, le_of_eq h3⟩

/-- The computation ends without overflow, if every subtask can be decomposed, with a stack whose size does not come near to `B`
(`INT_MAX`). -/
theorem C69_terminates_partial (P : Problem) (vars : List (Nat × Nat)) (nA nT B : Nat) (hin : ToInput P vars nA nT)
    (hB : ∀ m < P.numMethods, 2 * (P.sub m).length + 1 ≤ B ∧ ∀ t ∈ P.sub m, ∃ tr h, Valid P t tr ∧
      Fits P (fun m => List.range (P.sub m).length) (primLead P) tr h ∧ h + (P.sub m).length ≤ B) :
    ∃ s, PgbResult B P nA s := by
  obtain ⟨k, s, h⟩ := Pgb.iter_terminates (B := B) (reoOK hin.wf hin.totOK) hin.wf.head_abs (fun m hm => ⟨(hB m hm).1, fun t ht => by
    obtain ⟨tr, h, hv, hf, hh⟩ := (hB m hm).2 t ht
    exact ⟨tr, h, hv, hf.congr (fun m hm => (offOf_pgbReo hin.wf hin.totOK hm).symm) hin.totOK hv, hh⟩⟩) _ _ _ _ (le_refl _) (le_refl _)
    (Pgb.start_lower hin.prim hin.wf.head_abs) (Pgb.start_below hin.prim hin.wf.head_abs) Pgb.startQueue_ok
  exact ⟨s, k, h⟩

/-- The rounds of the controller: from any bound on, enlarged by `step` in each round, every solution is a plan of the translated
problem from some round on. -/
theorem C69_rounds (P : Problem) (vars : List (Nat × Nat)) (nA nT first step : Nat) (hin : ToInput P vars nA nT) (hf : 1 ≤ first)
    (hstep : 1 ≤ step) (π : List Nat) (hπ : IsSolution P π) : ∃ i, ∀ j ≥ i, ∃ T ρ,
      translate P vars nA nT (first + j * step) = some T ∧ T.Plan ρ ∧ planActs P ρ = π ∧ planCost ρ = P.planCost π := by
  obtain ⟨h1, h2⟩ := C64_translate_complete_partial P vars nA nT hin
  obtain ⟨b, hb⟩ := h2 π hπ
  refine ⟨b, fun j hj => ?_⟩
  have : j * 1 ≤ j * step := Nat.mul_le_mul_left _ hstep
  obtain ⟨T, hT, -, h⟩ := h1 (first + j * step) (by omega)
  obtain ⟨ρ, hρ⟩ := h π (hb _ (by omega))
  exact ⟨T, ρ, hT, hρ⟩

end

/-! ## Problems -/

/-- Action 0; 1 → 0 and, unless `b`, also 1 → 1, 0; the initial task 2 → 1, 1, 0 or, if `b`, 2 → 0.  If `b`, then only 1 → 1, 0. -/
def pbP (b : Bool) : Problem where
  numFacts := 1
  prim t := decide (t < 1)
  prec _ := []
  add _ := []
  del _ := []
  cost _ := 1
  numMethods := if b then 2 else 3
  head m := if m = 0 then 2 else 1
  sub m := if m = 0 then (if b then [0] else [1, 1, 0]) else if m = 1 then [1, 0] else [0]
  ord m := if m = 0 then (if b then [] else [(0, 1), (1, 2)]) else if m = 1 then [(0, 1)] else []
  init := 2
  s0 := []
  goal := []

theorem pbP_wf (b : Bool) : (pbP b).WF where
  ord_lt := by
    intro m _ i j h
    simp only [pbP] at h ⊢
    split_ifs at h ⊢ <;> simp at h ⊢ <;> omega
  ord_acyclic := by
    intro m _
    refine ⟨fun i => i, fun i j h => ?_⟩
    simp only [pbP] at h ⊢
    split_ifs at h <;> simp at h <;> omega
  sub_ne := by
    intro m _
    simp only [pbP]
    split_ifs <;> simp
  head_abs := by
    intro m _
    simp only [pbP]
    split_ifs <;> simp
  init_abs := by simp [pbP]
  prec_lt := by simp [pbP]
  add_lt := by simp [pbP]
  del_lt := by simp [pbP]
  s0_lt := by simp [pbP]
  goal_lt := by simp [pbP]

theorem pbP_in (b : Bool) : ToInput (pbP b) [(0, 0)] 1 3 where
  wf := pbP_wf b
  sas :=
    { ne := by simp
      contig := by simp [Contig, pbP]
      inv := by
        intro π s _ v hv hlt
        simp only [List.mem_cons, List.not_mem_nil, or_false] at hv
        subst hv
        simp at hlt
      noClash := by simp [pbP]
      sorted := by simp [pbP] }
  fits := by
    intro _ f hf
    simp [pbP] at hf
  prim _ := rfl
  nA_le := by omega
  head_lt m _ := by simp only [pbP]; split_ifs <;> omega
  sub_lt m _ t ht := by simp only [pbP] at ht; split_ifs at ht <;> simp at ht <;> omega
  init_lt := by simp [pbP]
  totOK := by
    have key : ∀ m < 3, ∀ i j : Nat, i < j → j < ((pbP b).sub m).length → Relation.TransGen ((pbP b).OrdRel m) i j := by
      intro m hm i j hij hj
      have h1 : ∀ k, k + 1 < ((pbP b).sub m).length → (pbP b).OrdRel m k (k + 1) := by
        intro k hk
        simp only [Problem.OrdRel]
        interval_cases m <;> cases b <;> simp [pbP] at hk ⊢ <;> omega
      induction j with
      | zero => omega
      | succ j ih =>
        rcases Nat.lt_or_ge i j with h | h
        · exact (ih h (by omega)).tail (h1 j hj)
        · obtain rfl : i = j := by omega
          exact .single (h1 i hj)
    intro m hm
    refine ⟨List.Perm.refl _, ?_⟩
    rw [List.pairwise_iff_getElem]
    intro i j hi hj hij
    simp only [List.length_range] at hi hj
    simp only [List.getElem_range]
    refine key m ?_ i j hij hj
    simp only [pbP] at hm
    split_ifs at hm <;> omega

theorem pbP_noConf (b : Bool) : NoConf (pbP b) [(0, 0)] 1 := ⟨by simp [pbP], by simp [pbP]⟩

/-- The bound of the first problem is 3. -/
example : ToInput (pbP false) [(0, 0)] 1 3 ∧ NoConf (pbP false) [(0, 0)] 1 ∧
    ∃ s, PgbResult (2 ^ 31 - 1) (pbP false) 1 s ∧ Pgb.minBound (pbP false) s = 3 := by
  have h : ∃ r, Pgb.iter (2 ^ 31 - 1) (pbP false) true (pgbReo (pbP false)) 20 (Pgb.start 1, startQueue (pbP false) 1) = some r ∧
      r.2 = [] ∧ Pgb.minBound (pbP false) r.1 = 3 :=
    ⟨(Pgb.iter (2 ^ 31 - 1) (pbP false) true (pgbReo (pbP false)) 20 (Pgb.start 1, startQueue (pbP false) 1)).get (by decide +kernel),
      (Option.some_get _).symm, by decide +kernel, by decide +kernel⟩
  obtain ⟨⟨s, q⟩, h1, h2, h3⟩ := h
  simp only at h2 h3
  subst h2
  exact ⟨pbP_in false, pbP_noConf false, s, ⟨20, h1⟩, h3⟩

/-- The hypothesis of `C69_terminates_partial` holds for it. -/
example : ∀ m < (pbP false).numMethods, 2 * ((pbP false).sub m).length + 1 ≤ 2 ^ 31 - 1 ∧ ∀ t ∈ (pbP false).sub m, ∃ tr h,
    Valid (pbP false) t tr ∧ Fits (pbP false) (fun m => List.range ((pbP false).sub m).length) (primLead (pbP false)) tr h ∧
      h + ((pbP false).sub m).length ≤ 2 ^ 31 - 1 := by
  have hl : ∀ m, ((pbP false).sub m).length ≤ 3 := by
    intro m
    simp only [pbP]
    split_ifs <;> simp
  intro m hm
  refine ⟨by have := hl m; omega, fun t ht => ?_⟩
  have ht' : t = 0 ∨ t = 1 := by
    simp only [pbP] at ht
    split_ifs at ht <;> simp at ht <;> omega
  rcases ht' with rfl | rfl
  · exact ⟨.leaf 0, 1, .leaf rfl, .leaf (le_refl _), by have := hl m; omega⟩
  · refine ⟨.node 2 fun _ => .leaf 0, 1, .node (P := pbP false) (m := 2) (by simp [pbP]) fun i t hi => ?_,
      .node (le_refl _) (by simp [pbP, primLead]) fun _ _ _ => ?_, by have := hl m; omega⟩
    · have := List.mem_of_getElem? hi
      simp [pbP] at this
      subst this
      exact .leaf rfl
    · exact .leaf (by simp [pbP, primLead])

/-- The state of the loop in the second problem: method 1 is in the work list again and again, with larger and larger values. -/
theorem pbP_loop (B : Nat) : ∀ (d v : Nat) (s : Pgb.Vals), B ≤ v + d → s.t 0 = 1 → s.t 1 = v → s.m 1 = v → 2 ≤ v →
    ∃ k, Pgb.iter B (pbP true) true (pgbReo (pbP true)) k (s, [.meth 1]) = none := by
  have hr : pgbReo (pbP true) 1 = ⟨[0, 1], 0⟩ := by rfl
  have hw : ∀ s : Pgb.Vals, s.t 0 = 1 → 2 ≤ s.t 1 →
      Pgb.pgbMeth ((pbP true).sub 1).length (Pgb.offOf true (pgbReo (pbP true) 1)) ((pbP true).head 1) (pgbReo (pbP true) 1).order s.t =
        s.t 1 + 1 := by
    intro s h0 h1
    rw [hr]
    have : ∀ y, Pgb.pgbMeth ((pbP true).sub 1).length (Pgb.offOf true ⟨[0, 1], 0⟩) ((pbP true).head 1) (Reo.mk [0, 1] 0).order s.t ≤ y ↔
        s.t 1 + 1 ≤ y := by
      intro y
      rw [Pgb.pgbMeth_le, Pgb.Above]
      have e1 : ((pbP true).sub 1).length - Pgb.offOf true ⟨[0, 1], 0⟩ = 2 := rfl
      have e2 : (pbP true).head 1 = 1 := rfl
      rw [e1, e2]
      constructor
      · rintro ⟨-, -, h⟩
        simpa using (h 1 (by omega)).1
      · intro h
        refine ⟨by omega, by omega, fun i hi => ?_⟩
        interval_cases i <;> simp [h0] <;> omega
    exact le_antisymm ((this _).2 (le_refl _)) ((this _).1 (le_refl _))
  have hm1 : Verif.MinImplied.methodsOf (pbP true) 1 = [1] := by decide +kernel
  have hm2 : Verif.MinImplied.methodsWith (pbP true) 1 = [1] := by decide +kernel
  have hh : (pbP true).head 1 = 1 := rfl
  intro d
  induction d with
  | zero =>
    intro v s hB h0 h1 h2 hv
    refine ⟨1, ?_⟩
    rw [Pgb.iter, Pgb.work]
    rw [hw s h0 (by omega), if_pos (by omega)]
  | succ d ih =>
    intro v s hB h0 h1 h2 hv
    by_cases hc : s.t 1 + 1 > B
    · refine ⟨1, ?_⟩
      rw [Pgb.iter, Pgb.work]
      rw [hw s h0 (by omega), if_pos hc]
    · have hmin : minOver B (Function.update s.m 1 (v + 1)) [1] = v + 1 := by
        simp only [minOver, List.foldl_cons, List.foldl_nil, Function.update_self]
        omega
      obtain ⟨k, hk⟩ := ih (v + 1) ⟨Function.update s.t 1 (v + 1), Function.update s.m 1 (v + 1)⟩ (by omega) (by simpa using h0)
        (by simp) (by simp) (by omega)
      refine ⟨k + 2, ?_⟩
      rw [Pgb.iter, Pgb.work]
      rw [hw s h0 (by omega), if_neg hc, if_pos (by omega), hh]
      simp only [List.nil_append]
      rw [Pgb.iter, Pgb.work]
      rw [hm1, hm2, h1, hmin, if_pos (by omega)]
      simpa using hk

/-- If a task can not be decomposed, the computation may go on until an integer overflows, whatever the range of the integers is;
the problem is solvable. -/
theorem C69_overflow_violated : ToInput (pbP true) [(0, 0)] 1 3 ∧ IsSolution (pbP true) [0] ∧ ∀ B ≥ 2, ∃ k,
    Pgb.iter B (pbP true) true (pgbReo (pbP true)) k (Pgb.start 1, startQueue (pbP true) 1) = none := by
  refine ⟨pbP_in true, ⟨_, .node 0 fun _ => .leaf 0, ?_, rfl, ⟨[[0]], ?_⟩, _, .cons (by simp [Problem.Applicable, pbP]) (.nil _),
    by simp [Problem.GoalState, pbP]⟩, fun B hB => ?_⟩
  · refine Valid.node (P := pbP true) (m := 0) (by simp [pbP]) fun i t hi => ?_
    have := List.mem_of_getElem? hi
    simp [pbP] at this
    subst this
    exact .leaf rfl
  · refine ⟨by simp, fun p => ?_, by simp, .cons (.child (by simp [pbP]) .here) .nil⟩
    constructor
    · intro h
      rw [List.mem_singleton] at h
      subst h
      exact ⟨0, .child (by simp [pbP]) .here⟩
    · rintro ⟨a, h⟩
      cases h with
      | child hi h =>
        cases h
        simp [pbP] at hi
        simp [hi]
  · have hq : startQueue (pbP true) 1 = [.meth 0, .meth 1] := by decide +kernel
    have c0 : Pgb.pgbMeth ((pbP true).sub 0).length (Pgb.offOf true (pgbReo (pbP true) 0)) ((pbP true).head 0) (pgbReo (pbP true) 0).order
        (Pgb.start 1).t = 1 := by decide +kernel
    have c1 : Pgb.pgbMeth ((pbP true).sub 1).length (Pgb.offOf true (pgbReo (pbP true) 1)) ((pbP true).head 1) (pgbReo (pbP true) 1).order
        (Pgb.start 1).t = 2 := by decide +kernel
    have h0 : (pbP true).head 0 = 2 := rfl
    have h1 : (pbP true).head 1 = 1 := rfl
    have m1 : methodsOf (pbP true) 1 = [1] := by decide +kernel
    have m2 : methodsOf (pbP true) 2 = [0] := by decide +kernel
    have w1 : Verif.MinImplied.methodsWith (pbP true) 1 = [1] := by decide +kernel
    have w2 : Verif.MinImplied.methodsWith (pbP true) 2 = [] := by decide +kernel
    obtain ⟨k, hk⟩ := pbP_loop B B 2 ⟨Function.update (Function.update (Pgb.start 1).t 2 1) 1 2,
      Function.update (Function.update (Pgb.start 1).m 0 1) 1 2⟩ (by omega) (by simp [Pgb.start]) (by simp) (by simp) (by omega)
    have n2 : minOver B (Function.update (Function.update (Pgb.start 1).m 0 1) 1 2) [0] = 1 := by
      simp [minOver, Function.update_apply]
      omega
    have n1 : minOver B (Function.update (Function.update (Pgb.start 1).m 0 1) 1 2) [1] = 2 := by
      simp [minOver]
      omega
    refine ⟨k + 4, ?_⟩
    rw [hq, Pgb.iter, Pgb.work, c0, if_neg (by omega), if_pos (by simp [Pgb.start]), h0]
    simp only [List.singleton_append]
    rw [Pgb.iter, Pgb.work]
    simp only
    rw [c1, if_neg (by omega), if_pos (by simp [Pgb.start]), h1]
    simp only [List.singleton_append]
    rw [Pgb.iter, Pgb.work, m2, n2, w2, if_pos (by simp [Pgb.start])]
    simp only [List.map_nil, List.append_nil]
    rw [Pgb.iter, Pgb.work, m1, n1, w1, if_pos (by simp [Pgb.start])]
    exact hk

end Verif.Props
