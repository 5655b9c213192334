import Verif.DofShape
import Verif.Props.PlanGraph
import Mathlib.Algebra.BigOperators.Ring.Finset
import Mathlib.Tactic.Ring
import Mathlib.Tactic.Linarith
import Mathlib.Tactic.Positivity

/-! # Solutions of the delete- and order-free relaxation are feasible points -/

namespace Verif.Dof

open Verif.Htn Verif.Prog Verif.TaskCounter Verif.Scc Verif.PG Verif.IntUtil Verif.Props Verif.Rc Verif.AO

/-- `tr` decomposes the tasks of the network; `π` lists the actions obtained, in an order in which the preconditions and the goal hold,
if effects are never deleted.  All orderings are ignored. -/
structure Relaxed (P : Problem) (I : Finset Nat) (lab : Nat → Nat) (s : Nat → Prop) (tr : Nat → Tree) (π : List Nat) : Prop where
  valid : ∀ u ∈ I, Valid P (lab u) (tr u)
  perm : π.Perm (I.toList.flatMap fun u => ((tr u).leaves P).map Prod.snd)
  prec : ∀ π₁ a π₂, π = π₁ ++ a :: π₂ → ∀ f ∈ P.prec a, s f ∨ ∃ b ∈ π₁, f ∈ P.add b
  goal : ∀ f ∈ P.goal, s f ∨ ∃ b ∈ π, f ∈ P.add b

/-- Occurrences of tasks and methods. -/
def numT (P : Problem) (I : Finset Nat) (tr : Nat → Tree) (t : Nat) : Nat := ∑ u ∈ I, (tr u).occT P t
def numM (P : Problem) (I : Finset Nat) (tr : Nat → Tree) (m : Nat) : Nat := ∑ u ∈ I, (tr u).occM P m

section

variable {P : Problem} {nA nT U : Nat} {S : Sccs} {I : Finset Nat} {lab : Nat → Nat} {s : Nat → Prop} {tr : Nat → Tree} {π : List Nat}

theorem Relaxed.count (hP : P.WF) (h : Relaxed P I lab s tr π) {a : Nat} (ha : P.prim a = true) : π.count a = numT P I tr a := by
  rw [h.perm.count_eq, List.count_flatMap, numT, ← Finset.sum_map_toList]
  exact congrArg List.sum (List.map_congr_left fun u hu => (h.valid u (Finset.mem_toList.1 hu)).count_leaves hP ha)

theorem Relaxed.prim (h : Relaxed P I lab s tr π) {a : Nat} (ha : a ∈ π) : P.prim a = true := by
  rw [h.perm.mem_iff] at ha
  simp only [List.mem_flatMap, Finset.mem_toList, List.mem_map, Prod.exists] at ha
  obtain ⟨u, hu, p, _, hl, rfl⟩ := ha
  exact (leaf_reach (h.valid u hu) (mem_leaves.1 hl)).2

theorem numT_balance (hv : ∀ u ∈ I, Valid P (lab u) (tr u)) (x : Nat) :
    numT P I tr x = (I.filter fun u => lab u = x).card + ∑ m ∈ Finset.range P.numMethods, numM P I tr m * (P.sub m).count x := by
  unfold numT numM
  rw [Finset.sum_congr rfl fun u hu => (hv u hu).balance x, Finset.sum_add_distrib, Finset.card_filter, Finset.sum_comm]
  congr 1
  exact Finset.sum_congr rfl fun m _ => by rw [Finset.sum_mul]

theorem numT_decomposed (hv : ∀ u ∈ I, Valid P (lab u) (tr u)) {x : Nat} (hx : P.prim x = false) :
    numT P I tr x = ∑ m ∈ (Finset.range P.numMethods).filter (fun m => P.head m = x), numM P I tr m := by
  unfold numT numM
  rw [Finset.sum_congr rfl fun u hu => (hv u hu).decomposed hx, Finset.sum_comm]

theorem inner_sum (hv : ∀ u ∈ I, Valid P (lab u) (tr u)) : ∑ u ∈ I, (tr u).inner P = ∑ m ∈ Finset.range P.numMethods, numM P I tr m := by
  unfold numM
  rw [Finset.sum_congr rfl fun u hu => (hv u hu).inner_eq, Finset.sum_comm]

theorem numM_lt (hv : ∀ u ∈ I, Valid P (lab u) (tr u)) {m : Nat} (h : numM P I tr m ≠ 0) : m < P.numMethods := by
  unfold numM at h
  obtain ⟨u, hu, h⟩ := Finset.exists_ne_zero_of_sum_ne_zero h
  exact (hv u hu).occM_lt h

theorem numM_le (hP : P.WF) (hv : ∀ u ∈ I, Valid P (lab u) (tr u)) (m : Nat) : numM P I tr m ≤ numT P I tr (P.head m) := by
  by_cases h : numM P I tr m = 0
  · omega
  have hm := numM_lt hv h
  rw [numT_decomposed hv (hP.head_abs m hm)]
  exact Finset.single_le_sum (f := numM P I tr) (fun _ _ => Nat.zero_le _) (Finset.mem_filter.2 ⟨Finset.mem_range.2 hm, rfl⟩)

theorem numT_sub (hv : ∀ u ∈ I, Valid P (lab u) (tr u)) {m x : Nat} (h : numM P I tr m ≠ 0) (hx : x ∈ P.sub m) : numT P I tr x ≠ 0 := by
  rw [numT_balance hv]
  have h1 := Finset.single_le_sum (f := fun m => numM P I tr m * (P.sub m).count x) (fun _ _ => Nat.zero_le _) (Finset.mem_range.2 (numM_lt hv h))
  have h2 : 0 < numM P I tr m * (P.sub m).count x := Nat.mul_pos (by omega) (List.count_pos_iff.2 hx)
  omega

theorem numT_root (hv : ∀ u ∈ I, Valid P (lab u) (tr u)) {u : Nat} (hu : u ∈ I) : numT P I tr (lab u) ≠ 0 := by
  rw [numT_balance hv]
  have : 0 < (I.filter fun v => lab v = lab u).card := Finset.card_pos.2 ⟨u, Finset.mem_filter.2 ⟨hu, rfl⟩⟩
  omega

/-- Everything is connected to the roots. -/
theorem numT_conn (hv : ∀ u ∈ I, Valid P (lab u) (tr u)) {x : Nat} (h : numT P I tr x ≠ 0) :
    Conn P (fun t => ∃ u ∈ I, lab u = t) (fun m => numM P I tr m ≠ 0) x := by
  unfold numT at h
  obtain ⟨u, hu, h⟩ := Finset.exists_ne_zero_of_sum_ne_zero h
  refine (hv u hu).conn (.root ⟨u, hu, rfl⟩) (fun m hm => ?_) h
  have := Finset.single_le_sum (f := fun u => (tr u).occM P m) (fun _ _ => Nat.zero_le _) hu
  unfold numM
  omega

/-! ## The point -/

/-- Number of actions that occur first before the first occurrence of `a`. -/
def rank (π : List Nat) (a : Nat) : Nat := (π.toFinset.filter fun b => π.idxOf b < π.idxOf a).card

/-- The first action that adds `f`. -/
def achiever (P : Problem) (π : List Nat) (f : Nat) : Option Nat := π.find? fun a => decide (f ∈ P.add a)

/-- Layer `k` of a component: the tasks reached by at most `k` methods used inside of the component. -/
def lay (P : Problem) (nT : Nat) (S : Sccs) (root M : Nat → Prop) (c : Nat) : Nat → Nat → Prop
  | 0, i => root (taskAt S c i) ∨ ∃ m ∈ incoming P nT S c i, M m
  | k + 1, i => lay P nT S root M c k i ∨ ∃ j < (S.tasks c).length, lay P nT S root M c k j ∧ ∃ m ∈ inner P S c j i, M m

open Classical in
/-- The values of the variables for a solution of the relaxation. -/
noncomputable def asg (P : Problem) (nA nT : Nat) (S : Sccs) (I : Finset Nat) (lab : Nat → Nat) (tr : Nat → Tree) (π : List Nat) : Var → Nat
  | .uf f => if (achiever P π f).isSome then 1 else 0
  | .ua t => numT P I tr t
  | .me m => numM P I tr m
  | .ef a i => if achiever P π ((P.add a)[i]?.getD 0) = some a ∧ (P.add a).idxOf ((P.add a)[i]?.getD 0) = i then 1 else 0
  | .tp f => match achiever P π f with | none => 0 | some a => rank π a + 1
  | .ta a => if a ∈ π then rank π a else nA
  | .ly c k i => if lay P nT S (fun t => ∃ u ∈ I, lab u = t) (fun m => numM P I tr m ≠ 0) c k i then 1 else 0
  | .inn _ 0 _ _ => 0
  | .inn c (k + 1) j i =>
    if lay P nT S (fun t => ∃ u ∈ I, lab u = t) (fun m => numM P I tr m ≠ 0) c k j ∧ ∃ m ∈ inner P S c j i, numM P I tr m ≠ 0 then 1 else 0

theorem rank_lt {a b : Nat} (hb : b ∈ π) (h : π.idxOf b < π.idxOf a) : rank π b < rank π a := by
  refine Finset.card_lt_card ?_
  rw [Finset.ssubset_iff_of_subset]
  · exact ⟨b, Finset.mem_filter.2 ⟨List.mem_toFinset.2 hb, h⟩, fun hm => by have := (Finset.mem_filter.1 hm).2; omega⟩
  · intro c hc
    obtain ⟨h1, h2⟩ := Finset.mem_filter.1 hc
    exact Finset.mem_filter.2 ⟨h1, by omega⟩

theorem rank_bound (hπ : ∀ a ∈ π, a < nA) {a : Nat} (ha : a ∈ π) : rank π a < nA := by
  have h1 : rank π a < π.toFinset.card := by
    refine Finset.card_lt_card ?_
    rw [Finset.ssubset_iff_of_subset (Finset.filter_subset _ _)]
    exact ⟨a, List.mem_toFinset.2 ha, fun hm => by have := (Finset.mem_filter.1 hm).2; omega⟩
  have h2 : π.toFinset.card ≤ (Finset.range nA).card := Finset.card_le_card fun b hb => Finset.mem_range.2 (hπ b (List.mem_toFinset.1 hb))
  rw [Finset.card_range] at h2
  omega

theorem achiever_some {f a : Nat} (h : achiever P π f = some a) : a ∈ π ∧ f ∈ P.add a :=
  ⟨List.mem_of_find?_eq_some h, by simpa using List.find?_some h⟩

theorem achiever_isSome {f : Nat} : (achiever P π f).isSome ↔ ∃ a ∈ π, f ∈ P.add a := by
  simp [achiever, List.find?_isSome]

/-- The first achiever comes first. -/
theorem achiever_first {f a b : Nat} (h : achiever P π f = some a) (hb : b ∈ π) (hf : f ∈ P.add b) : π.idxOf a ≤ π.idxOf b := by
  unfold achiever at h
  induction π with
  | nil => simp at hb
  | cons c l ih =>
    rw [List.find?_cons] at h
    by_cases hc : f ∈ P.add c
    · simp only [hc, decide_true, Option.some.injEq] at h
      subst h
      simp
    · simp only [hc, decide_false] at h
      have hne : c ≠ b := by rintro rfl; exact hc hf
      have ha := achiever_some (P := P) (π := l) h
      have hne' : c ≠ a := by rintro rfl; exact hc ha.2
      rw [List.idxOf_cons_ne _ hne, List.idxOf_cons_ne _ hne']
      have := ih h ((List.mem_cons.1 hb).resolve_left (Ne.symm hne))
      omega

/-- A precondition that does not hold at the start is achieved before the first occurrence. -/
theorem Relaxed.achieved (h : Relaxed P I lab s tr π) {a f : Nat} (ha : a ∈ π) (hf : f ∈ P.prec a) (hs : ¬ s f) :
    ∃ b, achiever P π f = some b ∧ π.idxOf b < π.idxOf a := by
  have hi : π.idxOf a < π.length := List.idxOf_lt_length_iff.2 ha
  have e : π = π.take (π.idxOf a) ++ a :: π.drop (π.idxOf a + 1) := by
    conv_lhs => rw [← List.take_append_drop (π.idxOf a) π]
    rw [List.drop_eq_getElem_cons hi, List.getElem_idxOf hi]
  obtain ⟨b, hb, hbf⟩ := (h.prec _ _ _ e f hf).resolve_left hs
  have hb' : b ∈ π := List.mem_of_mem_take hb
  have hlt : π.idxOf b < π.idxOf a := by
    obtain ⟨j, hj, e'⟩ := List.mem_iff_getElem.1 hb
    rw [List.length_take] at hj
    rw [List.getElem_take] at e'
    have : π.idxOf b ≤ j := by
      by_contra hlt
      have := List.not_of_lt_findIdx (p := (· == b)) (xs := π) (i := j) (by rw [List.idxOf] at hlt; omega)
      simp [e'] at this
    omega
  obtain ⟨c, hc⟩ := Option.isSome_iff_exists.1 (achiever_isSome.2 ⟨b, hb', hbf⟩)
  exact ⟨c, hc, (achiever_first hc hb' hbf).trans_lt hlt⟩

end

end Verif.Dof
