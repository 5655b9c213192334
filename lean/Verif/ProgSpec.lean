import Verif.HtnLemmas
import Mathlib.Data.Finset.Lattice.Fold

/-! # Progression of partially ordered task networks within a bound

The specification against which the translation of partially ordered problems is measured: a task network is worked off by executing
and decomposing tasks without predecessors, and never has more than `B` tasks.  This file relates it to the solutions: it derives
solutions only, and every solution if the bound is large enough. -/

namespace Verif.Htn

open Relation

/-- The network `(I', lab', R')` arises from `(I, lab, R)` by replacing task `u` with the subtasks `b, b + 1, ...` of method `m`.  `R`
are the direct constraints. -/
structure Refines (P : Problem) (I : Finset Nat) (lab : Nat → Nat) (R : Nat → Nat → Prop) (u m b : Nat) (I' : Finset Nat)
    (lab' : Nat → Nat) (R' : Nat → Nat → Prop) : Prop where
  mem : ∀ v, v ∈ I' ↔ (v ∈ I ∧ v ≠ u) ∨ ∃ i, i < (P.sub m).length ∧ v = b + i
  fresh : ∀ v ∈ I, v < b
  lab_old : ∀ v ∈ I, v ≠ u → lab' v = lab v
  lab_new : ∀ i t, (P.sub m)[i]? = some t → lab' (b + i) = t
  old : ∀ v ∈ I, ∀ w ∈ I, v ≠ u → w ≠ u → (R' v w ↔ R v w)
  new : ∀ i j, i < (P.sub m).length → j < (P.sub m).length → (R' (b + i) (b + j) ↔ P.OrdRel m i j)
  new_old : ∀ i w, i < (P.sub m).length → w ∈ I → w ≠ u → (R' (b + i) w ↔ R u w)
  old_new : ∀ v j, v ∈ I → v ≠ u → j < (P.sub m).length → (R' v (b + j) ↔ R v u)

/-- `ProgB P B I lab R s π`: the network can be worked off from `s` to a goal state, executing `π`, and never has more than `B` tasks. -/
inductive ProgB (P : Problem) (B : Nat) : Finset Nat → (Nat → Nat) → (Nat → Nat → Prop) → State → List Nat → Prop
  | done {lab : Nat → Nat} {R : Nat → Nat → Prop} {s : State} : P.GoalState s → ProgB P B ∅ lab R s []
  | act {I : Finset Nat} {lab : Nat → Nat} {R : Nat → Nat → Prop} {s : State} {u : Nat} {π : List Nat} : u ∈ I →
      (∀ v ∈ I, ¬ R v u) → P.prim (lab u) = true → P.Applicable s (lab u) →
      ProgB P B (I.erase u) lab R (P.result s (lab u)) π → ProgB P B I lab R s (lab u :: π)
  | dec {I I' : Finset Nat} {lab lab' : Nat → Nat} {R R' : Nat → Nat → Prop} {s : State} {u m b : Nat} {π : List Nat} : u ∈ I →
      (∀ v ∈ I, ¬ R v u) → m < P.numMethods → P.head m = lab u → Refines P I lab R u m b I' lab' R' → I'.card ≤ B →
      ProgB P B I' lab' R' s π → ProgB P B I lab R s π

/-- `π` is found by progression from the initial task, with networks of at most `B` tasks. -/
def BoundedSolution (P : Problem) (B : Nat) (π : List Nat) : Prop :=
  ProgB P B {0} (fun _ => P.init) (fun _ _ => False) P.initState π

/-- The constraints between the tasks of the network. -/
def Within (I : Finset Nat) (R : Nat → Nat → Prop) (v w : Nat) : Prop := v ∈ I ∧ w ∈ I ∧ R v w

variable {P : Problem}

theorem ProgB.mono {B B' : Nat} (hB : B ≤ B') {I : Finset Nat} {lab : Nat → Nat} {R : Nat → Nat → Prop} {s : State} {π : List Nat}
    (h : ProgB P B I lab R s π) : ProgB P B' I lab R s π := by
  induction h with
  | done h => exact .done h
  | act h1 h2 h3 h4 _ ih => exact .act h1 h2 h3 h4 ih
  | dec h1 h2 h3 h4 h5 h6 _ ih => exact .dec h1 h2 h3 h4 h5 (h6.trans hB) ih

section

variable {I I' : Finset Nat} {lab lab' : Nat → Nat} {R R' : Nat → Nat → Prop} {u m b : Nat}

theorem not_tg_min (hmin : ∀ v ∈ I, ¬ R v u) (v : Nat) : ¬ TransGen (Within I R) v u := by
  intro h
  obtain ⟨c, -, hc⟩ := TransGen.tail'_iff.1 h
  exact hmin c hc.1 hc.2.2

/-- Without a task that has no predecessors, the constraints between the others are the same. -/
theorem tg_erase (hmin : ∀ v ∈ I, ¬ R v u) {v w : Nat} (hv : v ≠ u) (h : TransGen (Within I R) v w) : TransGen (Within (I.erase u) R) v w := by
  induction h with
  | single h =>
    refine .single ⟨Finset.mem_erase.2 ⟨hv, h.1⟩, Finset.mem_erase.2 ⟨?_, h.2.1⟩, h.2.2⟩
    rintro rfl
    exact hmin _ h.1 h.2.2
  | @tail c d h1 h2 ih =>
    refine ih.tail ⟨Finset.mem_erase.2 ⟨?_, h2.1⟩, Finset.mem_erase.2 ⟨?_, h2.2.1⟩, h2.2.2⟩
    · rintro rfl
      exact not_tg_min hmin _ h1
    · rintro rfl
      exact hmin _ h2.1 h2.2.2

theorem tg_mono {J : Finset Nat} (hJ : J ⊆ I) {v w : Nat} (h : TransGen (Within J R) v w) : TransGen (Within I R) v w :=
  TransGen.mono (fun _ _ h => ⟨hJ h.1, hJ h.2.1, h.2.2⟩) v w h

namespace Refines

theorem no_old_new (S : Refines P I lab R u m b I' lab' R') (hmin : ∀ v ∈ I, ¬ R v u) {v j : Nat} (hj : j < (P.sub m).length)
    (h : Within I' R' v (b + j)) : ∃ i < (P.sub m).length, v = b + i := by
  rcases (S.mem v).1 h.1 with ⟨h1, h2⟩ | h1
  · exact absurd ((S.old_new v j h1 h2 hj).1 h.2.2) (hmin v h1)
  · exact h1

theorem ne_new (S : Refines P I lab R u m b I' lab' R') {v i : Nat} (hv : v ∈ I) : v ≠ b + i := by
  have := S.fresh v hv
  omega

theorem tg_old (S : Refines P I lab R u m b I' lab' R') (hmin : ∀ v ∈ I, ¬ R v u) {v w : Nat} (hv : v ∈ I) (hvu : v ≠ u) (hw : w ∈ I)
    (hwu : w ≠ u) : TransGen (Within I' R') v w ↔ TransGen (Within I R) v w := by
  constructor
  · intro h
    have key : ∀ y, TransGen (Within I' R') v y → (y ∈ I ∧ y ≠ u) ∧ TransGen (Within I R) v y := by
      intro y hy
      have hold : ∀ x y, (x ∈ I ∧ x ≠ u) → Within I' R' x y → (y ∈ I ∧ y ≠ u) ∧ Within I R x y := by
        intro x y hx h
        rcases (S.mem y).1 h.2.1 with h1 | ⟨i, hi, rfl⟩
        · exact ⟨h1, hx.1, h1.1, (S.old x hx.1 y h1.1 hx.2 h1.2).1 h.2.2⟩
        · obtain ⟨k, -, rfl⟩ := S.no_old_new hmin hi h
          exact absurd rfl (S.ne_new hx.1)
      induction hy with
      | single h => exact ⟨(hold _ _ ⟨hv, hvu⟩ h).1, .single (hold _ _ ⟨hv, hvu⟩ h).2⟩
      | tail _ h2 ih => exact ⟨(hold _ _ ih.1 h2).1, ih.2.tail (hold _ _ ih.1 h2).2⟩
    exact (key w h).2
  · intro h
    refine TransGen.mono (fun x y hxy => ?_) v w (tg_erase hmin hvu h)
    obtain ⟨h1, h2⟩ := Finset.mem_erase.1 hxy.1
    obtain ⟨h3, h4⟩ := Finset.mem_erase.1 hxy.2.1
    exact ⟨(S.mem x).2 (.inl ⟨h2, h1⟩), (S.mem y).2 (.inl ⟨h4, h3⟩), (S.old x h2 y h4 h1 h3).2 hxy.2.2⟩

/-- The transitive constraints change as in the specification of decomposition. -/
theorem subst (hP : P.WF) (S : Refines P I lab R u m b I' lab' R') (hm : m < P.numMethods) (hu : u ∈ I) (hmin : ∀ v ∈ I, ¬ R v u) :
    Subst P I lab (TransGen (Within I R)) u m b I' lab' (TransGen (Within I' R')) where
  mem := S.mem
  fresh := S.fresh
  lab_old := S.lab_old
  lab_new := S.lab_new
  lt_old v hv w hw hvu hwu := S.tg_old hmin hv hvu hw hwu
  lt_new i j hi hj := by
    constructor
    · intro h
      have key : ∀ y, TransGen (Within I' R') (b + i) y → ∀ j < (P.sub m).length, y = b + j → TransGen (P.OrdRel m) i j := by
        intro y hy
        induction hy with
        | single h =>
          rintro j hj rfl
          exact .single ((S.new i j hi hj).1 h.2.2)
        | tail _ h2 ih =>
          rintro j hj rfl
          obtain ⟨k, hk, rfl⟩ := S.no_old_new hmin hj h2
          exact (ih k hk rfl).tail ((S.new k j hk hj).1 h2.2.2)
      exact key _ h j hj rfl
    · intro h
      refine TransGen.lift (b + ·) (fun x y hxy => ?_) i j h
      obtain ⟨h1, h2⟩ := hP.ord_lt m hm x y hxy
      exact ⟨(S.mem _).2 (.inr ⟨x, h1, rfl⟩), (S.mem _).2 (.inr ⟨y, h2, rfl⟩), (S.new x y h1 h2).2 hxy⟩
  lt_new_old i w hi hw hwu := by
    constructor
    · intro h
      have key : ∀ y, TransGen (Within I' R') (b + i) y → y ∈ I → y ≠ u → TransGen (Within I R) u y := by
        intro y hy
        induction hy with
        | single h => exact fun h1 h2 => .single ⟨hu, h1, (S.new_old i _ hi h1 h2).1 h.2.2⟩
        | @tail c d h1 h2 ih =>
          intro hd hdu
          rcases (S.mem c).1 h2.1 with ⟨g1, g2⟩ | ⟨k, hk, rfl⟩
          · exact (ih g1 g2).tail ⟨g1, hd, (S.old c g1 d hd g2 hdu).1 h2.2.2⟩
          · exact .single ⟨hu, hd, (S.new_old k d hk hd hdu).1 h2.2.2⟩
      exact key w h hw hwu
    · intro h
      obtain ⟨c, hc, hcw⟩ := TransGen.head'_iff.1 h
      have hcu : c ≠ u := by
        rintro rfl
        exact hmin _ hc.1 hc.2.2
      have h1 : Within I' R' (b + i) c :=
        ⟨(S.mem _).2 (.inr ⟨i, hi, rfl⟩), (S.mem _).2 (.inl ⟨hc.2.1, hcu⟩), (S.new_old i c hi hc.2.1 hcu).2 hc.2.2⟩
      rcases reflTransGen_iff_eq_or_transGen.1 hcw with rfl | hcw
      · exact .single h1
      · exact .head h1 ((S.tg_old hmin hc.2.1 hcu hw hwu).2 hcw)
  lt_old_new v j hv hvu hj := by
    constructor
    · intro h
      exfalso
      have key : ∀ y, TransGen (Within I' R') v y → ∀ j < (P.sub m).length, y ≠ b + j := by
        intro y hy
        induction hy with
        | single h =>
          rintro j hj rfl
          obtain ⟨k, -, rfl⟩ := S.no_old_new hmin hj h
          exact S.ne_new hv rfl
        | tail _ h2 ih =>
          rintro j hj rfl
          obtain ⟨k, hk, rfl⟩ := S.no_old_new hmin hj h2
          exact ih k hk rfl
      exact key _ h j hj rfl
    · intro h
      exact absurd h (not_tg_min hmin v)

end Refines

/-- There is a refined network. -/
theorem exists_refines (I : Finset Nat) (lab : Nat → Nat) (R : Nat → Nat → Prop) (u m : Nat) :
    ∃ b I' lab' R', Refines P I lab R u m b I' lab' R' := by
  classical
  let b := I.sup id + 1
  have hf : ∀ v ∈ I, v < b := fun v hv => Nat.lt_succ_of_le (Finset.le_sup (f := id) hv)
  refine ⟨b, I.erase u ∪ (Finset.range (P.sub m).length).image (b + ·), fun v => if v < b then lab v else (P.sub m)[v - b]?.getD 0,
    fun v w => if v < b then (if w < b then R v w else R v u) else if w < b then R u w else P.OrdRel m (v - b) (w - b), ?_, hf, ?_, ?_,
    ?_, ?_, ?_, ?_⟩
  · intro v
    simp only [Finset.mem_union, Finset.mem_erase, Finset.mem_image, Finset.mem_range, and_comm (a := v ≠ u)]
    exact or_congr_right ⟨fun ⟨i, h1, h2⟩ => ⟨i, h1, h2.symm⟩, fun ⟨i, h1, h2⟩ => ⟨i, h1, h2.symm⟩⟩
  · intro v hv _
    simp only [hf v hv, if_true]
  · intro i t ht
    simp only [show ¬ b + i < b by omega, if_false, Nat.add_sub_cancel_left, ht, Option.getD_some]
  · intro v hv w hw _ _
    simp only [hf v hv, hf w hw, if_true]
  · intro i j _ _
    simp only [show ¬ b + i < b by omega, show ¬ b + j < b by omega, if_false, Nat.add_sub_cancel_left]
  · intro i w _ hw _
    simp only [show ¬ b + i < b by omega, hf w hw, if_false, if_true]
  · intro v j hv _ _
    simp only [show ¬ b + j < b by omega, hf v hv, if_false, if_true]

end

/-- Progression derives only solutions. -/
theorem ProgB.sound (hP : P.WF) {B : Nat} {I : Finset Nat} {lab : Nat → Nat} {R : Nat → Nat → Prop} {s : State} {π : List Nat}
    (h : ProgB P B I lab R s π) : ∃ k, SolvesN P I lab (TransGen (Within I R)) s π k := by
  induction h with
  | done h => exact ⟨0, solvesN_empty.2 ⟨rfl, rfl, h⟩⟩
  | @act I lab R s u π h1 h2 h3 h4 _ ih =>
    obtain ⟨k, hk⟩ := ih
    refine ⟨k, SolvesN.progress h1 h3 (fun v _ => not_tg_min h2 v) h4 (hk.congr (fun _ _ => rfl) fun v hv w _ h => ?_)⟩
    exact tg_erase h2 (Finset.ne_of_mem_erase hv) h
  | @dec I I' lab lab' R R' s u m b π h1 h2 h3 h4 h5 _ _ ih =>
    obtain ⟨k, hk⟩ := ih
    exact ⟨k + 1, SolvesN.of_subst h3 h4 h1 (not_tg_min h2 u) (h5.subst hP h3 h1 h2) hk⟩

/-- Every solution can be worked off, if the bound is large enough. -/
theorem ProgB.complete (hP : P.WF) : ∀ (n : Nat) {I : Finset Nat} {lab : Nat → Nat} {R : Nat → Nat → Prop} {s : State} {π : List Nat}
    {k : Nat}, π.length + k = n → (∃ rank : Nat → Nat, ∀ v w, v ∈ I → w ∈ I → R v w → rank v < rank w) →
    SolvesN P I lab (TransGen (Within I R)) s π k → ∃ B, ProgB P B I lab R s π := by
  intro n
  induction n using Nat.strong_induction_on with
  | _ n ihn =>
    intro I lab R s π k hn hrank h
    obtain ⟨rank, hrank⟩ := hrank
    have hirr : ∀ v, ¬ TransGen (Within I R) v v := by
      intro v hv
      have key : ∀ w, TransGen (Within I R) v w → rank v < rank w := by
        intro w hw
        induction hw with
        | single h => exact hrank _ _ h.1 h.2.1 h.2.2
        | tail _ h2 ih => exact ih.trans (hrank _ _ h2.1 h2.2.1 h2.2.2)
      exact absurd (key v hv) (by omega)
    rcases I.eq_empty_or_nonempty with rfl | hI
    · obtain ⟨rfl, -, hg⟩ := solvesN_empty.1 h
      exact ⟨0, .done hg⟩
    · by_cases hab : ∃ u ∈ I, (∀ v ∈ I, ¬ R v u) ∧ P.prim (lab u) = false
      · obtain ⟨u, hu, hmin, hp⟩ := hab
        obtain ⟨m, hm, hh, hk, hs⟩ := h.to_subst hu hp
        obtain ⟨b, I', lab', R', S⟩ := exists_refines (P := P) I lab R u m
        obtain ⟨rm, hrm⟩ := hP.ord_acyclic m hm
        obtain ⟨B, hB⟩ := ihn (π.length + (k - 1)) (by omega) rfl (by
          classical
          let M := (Finset.range (P.sub m).length).sup rm
          have hM : ∀ i < (P.sub m).length, rm i ≤ M := fun i hi => Finset.le_sup (f := rm) (Finset.mem_range.2 hi)
          refine ⟨fun v => if v < b then rank v + M + 1 else rm (v - b), fun v w hv hw hR => ?_⟩
          rcases (S.mem v).1 hv with ⟨h1, h2⟩ | ⟨i, hi, rfl⟩ <;> rcases (S.mem w).1 hw with ⟨h3, h4⟩ | ⟨j, hj, rfl⟩
          · have := hrank v w h1 h3 ((S.old v h1 w h3 h2 h4).1 hR)
            simp only [S.fresh v h1, S.fresh w h3, if_true]
            omega
          · exact absurd ((S.old_new v j h1 h2 hj).1 hR) (hmin v h1)
          · have := hM i hi
            simp only [show ¬ b + i < b by omega, S.fresh w h3, if_true, if_false, Nat.add_sub_cancel_left]
            omega
          · simp only [show ¬ b + i < b by omega, show ¬ b + j < b by omega, if_false, Nat.add_sub_cancel_left]
            exact hrm i j ((S.new i j hi hj).1 hR)) (hs b I' lab' _ (S.subst hP hm hu hmin))
        exact ⟨max B I'.card, .dec hu hmin hm hh S (le_max_right _ _) (hB.mono (le_max_left _ _))⟩
      · obtain ⟨u, hu, hmin, happ, π', rfl, hs⟩ := h.unprogress hP hI (fun v _ => hirr v) (fun v hv hmin => by
          by_contra hp
          refine hab ⟨v, hv, fun w hw hR => ?_, by simpa using hp⟩
          exact hmin w hw (.single ⟨hw, hv, hR⟩))
        have hmin' : ∀ v ∈ I, ¬ R v u := fun v hv hR => hmin v hv (.single ⟨hv, hu, hR⟩)
        have hpu : P.prim (lab u) = true := by
          by_contra hp
          exact hab ⟨u, hu, hmin', by simpa using hp⟩
        obtain ⟨B, hB⟩ := ihn (π'.length + k) (by simp only [List.length_cons] at hn; omega) rfl
          ⟨rank, fun v w hv hw => hrank v w (Finset.mem_of_mem_erase hv) (Finset.mem_of_mem_erase hw)⟩
          (hs.congr (fun _ _ => rfl) fun v _ w _ h => tg_mono (Finset.erase_subset u I) h)
        exact ⟨B, .act hu hmin' hpu happ hB⟩

theorem within_false {v w : Nat} : ¬ TransGen (Within {0} fun _ _ => False) v w := by
  intro h
  obtain ⟨c, -, hc⟩ := TransGen.tail'_iff.1 h
  exact hc.2.2

/-- Progression within a bound yields solutions. -/
theorem BoundedSolution.isSolution (hP : P.WF) {B : Nat} {π : List Nat} (h : BoundedSolution P B π) : IsSolution P π := by
  obtain ⟨k, hk⟩ := ProgB.sound hP h
  exact ⟨k, (isSolutionN_iff (u := 0) (by rfl) within_false).1 hk⟩

theorem BoundedSolution.mono {B B' : Nat} (hB : B ≤ B') {π : List Nat} (h : BoundedSolution P B π) : BoundedSolution P B' π :=
  ProgB.mono hB h

/-- Each solution is found with a large enough bound. -/
theorem IsSolution.bounded (hP : P.WF) {π : List Nat} (h : IsSolution P π) : ∃ B, ∀ B' ≥ B, BoundedSolution P B' π := by
  obtain ⟨k, hk⟩ := h
  obtain ⟨B, hB⟩ := ProgB.complete hP _ rfl ⟨id, fun v w _ _ h => h.elim⟩
    ((isSolutionN_iff (lab := fun _ => P.init) (u := 0) rfl within_false).2 hk)
  exact ⟨B, fun B' h' => ProgB.mono h' hB⟩

end Verif.Htn
