import Verif.IntHeap
import Mathlib.Data.Finset.Basic
import Mathlib.Algebra.Order.BigOperators.Group.Finset

/-! # Delete relaxation: specification, and the contract of the priority queue

A STRIPS model as the classical heuristics see it (members of `Model`: `numStateBits`, `numActions`,
`precLists`, `addLists`, `actionCosts`; delete lists are not read by these heuristics). -/

namespace Verif.Strips

/-- The classical model, without delete effects. -/
structure Strips where
  numFacts : Nat
  numOps : Nat
  prec : Nat → List Nat
  add : Nat → List Nat
  cost : Nat → Nat

/-- Facts in range; no precondition is listed twice; every action has a precondition. -/
structure Strips.WF (M : Strips) : Prop where
  prec_lt : ∀ o < M.numOps, ∀ p ∈ M.prec o, p < M.numFacts
  add_lt : ∀ o < M.numOps, ∀ p ∈ M.add o, p < M.numFacts
  prec_nodup : ∀ o < M.numOps, (M.prec o).Nodup
  prec_ne : ∀ o < M.numOps, M.prec o ≠ []

/-- `RelPlan M s π t`: the delete-free execution of `π` in `s` is possible and leads to `t`. -/
inductive RelPlan (M : Strips) : (Nat → Prop) → List Nat → (Nat → Prop) → Prop
  | nil {s : Nat → Prop} : RelPlan M s [] s
  | cons {s t : Nat → Prop} {o : Nat} {π : List Nat} : o < M.numOps → (∀ p ∈ M.prec o, s p) →
      RelPlan M (fun f => s f ∨ f ∈ M.add o) π t → RelPlan M s (o :: π) t

/-- `π` is a plan of the delete relaxation. -/
def SolvesRel (M : Strips) (s g π : List Nat) : Prop :=
  ∃ t, RelPlan M (· ∈ s) π t ∧ ∀ f ∈ g, t f

/-- Sum of the costs of a sequence. -/
def costOf (c : Nat → Nat) (π : List Nat) : Nat := (π.map c).sum

/-- Facts that can be made true if delete effects are ignored. -/
inductive Reach (M : Strips) (s : Nat → Prop) : Nat → Prop
  | init {f : Nat} : s f → Reach M s f
  | op {o f : Nat} : o < M.numOps → f ∈ M.add o → (∀ p ∈ M.prec o, Reach M s p) → Reach M s f

/-- `HLe M c s f k`: the h-max value of `f` is at most `k`.  The h-max value is the least such `k`: a fact
of the state has value 0, another one the minimum over its producers of the cost of the producer plus
the maximum over its preconditions. -/
inductive HLe (M : Strips) (c : Nat → Nat) (s : Nat → Prop) : Nat → Nat → Prop
  | init {f k : Nat} : s f → HLe M c s f k
  | op {o f k k' : Nat} : o < M.numOps → f ∈ M.add o → (∀ p ∈ M.prec o, HLe M c s p k) → k + c o ≤ k' →
      HLe M c s f k'

variable {M : Strips} {c : Nat → Nat} {s : Nat → Prop}

theorem HLe.mono {f k k' : Nat} (h : HLe M c s f k) (hk : k ≤ k') : HLe M c s f k' := by
  cases h with
  | init h => exact .init h
  | op h1 h2 h3 h4 => exact .op h1 h2 h3 (Nat.le_trans h4 hk)

theorem HLe.reach {f k : Nat} (h : HLe M c s f k) : Reach M s f := by
  induction h with
  | init h => exact .init h
  | op h1 h2 _ _ ih => exact .op h1 h2 ih

theorem costOf_cons (c : Nat → Nat) (o : Nat) (π : List Nat) : costOf c (o :: π) = c o + costOf c π := by
  simp [costOf]

/-- h-max is a lower bound of the cost of every relaxed plan. -/
theorem RelPlan.hle {s' : Nat → Prop} {k : Nat} {π t} (h : RelPlan M s' π t)
    (hs : ∀ f, s' f → HLe M c s f k) : ∀ f, t f → HLe M c s f (k + costOf c π) := by
  induction h generalizing k with
  | nil => intro f hf; exact hs f hf
  | @cons s' t o π ho hp _ ih =>
    intro f hf
    have := ih (k := k + c o) (fun g hg => by
      rcases hg with hg | hg
      · exact (hs g hg).mono (Nat.le_add_right _ _)
      · exact .op ho hg (fun p hpm => hs p (hp p hpm)) (Nat.le_refl _)) f hf
    rw [costOf_cons, ← Nat.add_assoc]
    exact this

theorem RelPlan.append {s1 s2 s3 : Nat → Prop} {π ρ} (h1 : RelPlan M s1 π s2) (h2 : RelPlan M s2 ρ s3) :
    RelPlan M s1 (π ++ ρ) s3 := by
  induction h1 with
  | nil => exact h2
  | cons ho hp _ ih => exact .cons ho hp (ih h2)

theorem RelPlan.mono {s1 t1 : Nat → Prop} {π} (h : RelPlan M s1 π t1) :
    ∀ {s2 : Nat → Prop}, (∀ f, s1 f → s2 f) → ∃ t2, RelPlan M s2 π t2 ∧ ∀ f, t1 f → t2 f := by
  induction h with
  | nil => intro s2 hs; exact ⟨s2, .nil, hs⟩
  | cons ho hp _ ih =>
    intro s2 hs
    obtain ⟨t2, h1, h2⟩ := ih (s2 := fun f => s2 f ∨ f ∈ M.add _) (fun f hf => hf.imp (hs f) id)
    exact ⟨t2, .cons ho (fun p h => hs p (hp p h)) h1, h2⟩

theorem RelPlan.keep {s1 t1 : Nat → Prop} {π} (h : RelPlan M s1 π t1) {f} (hf : s1 f) : t1 f := by
  induction h with
  | nil => exact hf
  | cons _ _ _ ih => exact ih (.inl hf)

theorem RelPlan.reach {s' : Nat → Prop} {π t} (h : RelPlan M s' π t)
    (hs : ∀ f, s' f → Reach M s f) : ∀ f, t f → Reach M s f := fun f hf =>
  (h.hle (c := fun _ => 0) (k := 0) (s := fun f => Reach M s f) (fun f hf => .init (hs f hf)) f hf).reach.rec
    (fun h => h) (fun h1 h2 _ ih => .op h1 h2 ih)

/-- Relaxed plans for several facts can be joined. -/
theorem relPlan_all {l : List Nat} (h : ∀ p ∈ l, ∃ π t, RelPlan M s π t ∧ t p) :
    ∃ π t, RelPlan M s π t ∧ ∀ p ∈ l, t p := by
  induction l with
  | nil => exact ⟨[], s, .nil, by simp⟩
  | cons a l ih =>
    obtain ⟨π, t, h1, h2⟩ := h a List.mem_cons_self
    obtain ⟨ρ, u, h3, h4⟩ := ih (fun p hp => h p (List.mem_cons_of_mem _ hp))
    obtain ⟨u', h5, h6⟩ := h3.mono (s2 := t) (fun f hf => h1.keep hf)
    refine ⟨π ++ ρ, u', h1.append h5, fun p hp => ?_⟩
    rcases List.mem_cons.1 hp with rfl | hp
    · exact h5.keep h2
    · exact h6 p (h4 p hp)

theorem Reach.relPlan {f : Nat} (h : Reach M s f) : ∃ π t, RelPlan M s π t ∧ t f := by
  induction h with
  | @init f h => exact ⟨[], s, .nil, h⟩
  | @op o f ho hf _ ih =>
    obtain ⟨π, t, h1, h2⟩ := relPlan_all ih
    exact ⟨π ++ [o], _, h1.append (.cons ho h2 .nil), .inr hf⟩

/-- A set of facts is relaxed reachable iff there is a relaxed plan. -/
theorem reach_iff {g : List Nat} : (∀ f ∈ g, Reach M s f) ↔ ∃ π t, RelPlan M s π t ∧ ∀ f ∈ g, t f :=
  ⟨fun h => relPlan_all fun f hf => (h f hf).relPlan,
    fun ⟨_, _, h1, h2⟩ f hf => h1.reach (fun _ h => .init h) f (h2 f hf)⟩

/-! ## The priority queue -/

/-- What the explorations use of `IntPairHeap` (src/intDataStructures/IntPairHeap.h): entries are pairs
of key and value, `pop` returns some entry with minimal key.  Met by the heap: `heapPQ`. -/
structure PQ where
  Q : Type
  empty : Q
  add : Q → Nat → Nat → Q
  pop : Q → Option ((Nat × Nat) × Q)
  items : Q → List (Nat × Nat)
  items_empty : items empty = []
  items_add : ∀ q k v, (items (add q k v)).Perm ((k, v) :: items q)
  pop_none : ∀ q, pop q = none → items q = []
  pop_some : ∀ q x q', pop q = some (x, q') →
    (items q).Perm (x :: items q') ∧ ∀ y ∈ items q, x.1 ≤ y.1

open Verif.IntHeap in
/-- States of `IntPairHeap<int>` whose entries are natural numbers. -/
abbrev HeapQ := { h : H // IntHeap.Inv h ∧ ∀ x ∈ content h, 0 ≤ x.1 ∧ 0 ≤ x.2 }

open Verif.IntHeap in
theorem heapAdd_spec (q : HeapQ) (k v : Nat) : ∃ h', IntHeap.add q.1 k v = some h' ∧
    (IntHeap.Inv h' ∧ ∀ x ∈ content h', 0 ≤ x.1 ∧ 0 ≤ x.2) ∧
    (content h').Perm (((k : Int), (v : Int)) :: content q.1) := by
  obtain ⟨h', e1, e2, e3⟩ := IntHeap.add_spec (k := k) (v := v) q.2.1 (by unfold intMin; omega)
  refine ⟨h', e1, ⟨e2, fun x hx => ?_⟩, e3⟩
  rcases List.mem_cons.1 (e3.mem_iff.1 hx) with rfl | hx
  · exact ⟨by simp, by simp⟩
  · exact q.2.2 x hx

open Verif.IntHeap in
/-- `IntPairHeap<int>` as a priority queue; the capacity given to the constructor is `size + 1`. -/
def heapPQ (size : Nat) : PQ where
  Q := HeapQ
  empty := ⟨⟨[(intMin, intMin)], size + 1⟩, by
    obtain ⟨h, e1, e2, e3⟩ := IntHeap.new_spec (size := size + 1) (by omega)
    simp only [IntHeap.new, Nat.add_eq_zero_iff, Nat.one_ne_zero, and_false, if_false, Option.some.injEq] at e1
    subst e1
    exact ⟨e2, by rw [e3]; simp⟩⟩
  add q k v := ⟨(IntHeap.add q.1 k v).getD q.1, by
    obtain ⟨h', e1, e2, -⟩ := heapAdd_spec q k v
    rw [e1]; exact e2⟩
  pop q := if h : content q.1 ≠ [] then
      some ((((top q.1).getD (0, 0)).1.toNat, ((top q.1).getD (0, 0)).2.toNat),
        ⟨(IntHeap.pop q.1).getD q.1, by
          obtain ⟨h', p, e1, -, e3, e4, -⟩ := IntHeap.pop_spec q.2.1 h
          rw [e1]
          exact ⟨e3, fun x hx => q.2.2 x (e4.mem_iff.2 (List.mem_cons_of_mem _ hx))⟩⟩)
    else none
  items q := (content q.1).map fun x => (x.1.toNat, x.2.toNat)
  items_empty := rfl
  items_add q k v := by
    obtain ⟨h', e1, -, e3⟩ := heapAdd_spec q k v
    simp only [e1, Option.getD_some]
    simpa using e3.map fun x : Int × Int => (x.1.toNat, x.2.toNat)
  pop_none q h := by
    by_cases hc : content q.1 = []
    · simp [hc]
    · simp [hc] at h
  pop_some q x q' h := by
    by_cases hc : content q.1 = []
    · simp [hc] at h
    · obtain ⟨h', p, e1, e2, e3, e4, e5⟩ := IntHeap.pop_spec q.2.1 hc
      simp only [ne_eq, hc, not_false_eq_true, dif_pos, Option.some.injEq, Prod.mk.injEq] at h
      obtain ⟨rfl, rfl⟩ := h
      simp only [e1, e2, Option.getD_some]
      refine ⟨by simpa using e4.map fun x : Int × Int => (x.1.toNat, x.2.toNat), ?_⟩
      intro y hy
      obtain ⟨z, hz, rfl⟩ := List.mem_map.1 hy
      exact Int.toNat_le_toNat (e5 z hz)

/-- The precondition to action mapping: `createInverseMappings` (src/heuristics/rcHeuristics/
RCModelFactory.cpp 236-257), `Model::read` builds the same; a `set<int>` is iterated in ascending order. -/
def Strips.precToAction (M : Strips) (p : Nat) : List Nat :=
  (List.range M.numOps).filter fun o => decide (p ∈ M.prec o)

theorem mem_precToAction {p o : Nat} : o ∈ M.precToAction p ↔ o < M.numOps ∧ p ∈ M.prec o := by
  simp [Strips.precToAction]

theorem precToAction_nodup (p : Nat) : (M.precToAction p).Nodup := List.nodup_range.filter _

end Verif.Strips
