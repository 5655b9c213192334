import Verif.HtnLemmas
import Mathlib.Data.List.Sort
import Mathlib.Data.List.Nodup

/-! # Totally ordered problems

If the subtasks of every method are totally ordered, a decomposition tree has exactly one linearisation: its leaves from
left to right, where the subtasks of each method are visited in their order.  This file is about the specification
only. -/

namespace Verif.Htn

open Relation

/-- `tot m` lists the subtasks of method `m`, and each one is ordered before all later ones. -/
def TotOK (P : Problem) (tot : Nat → List Nat) : Prop :=
  ∀ m < P.numMethods, (tot m).Perm (List.range (P.sub m).length) ∧ (tot m).Pairwise fun i j => TransGen (P.OrdRel m) i j

/-- The leaves of a tree from left to right. -/
def canon (tot : Nat → List Nat) : Tree → List (List Nat × Nat)
  | .leaf a => [([], a)]
  | .node m cs => (tot m).flatMap fun i => (canon tot (cs i)).map fun x => (i :: x.1, x.2)

/-- The actions at the leaves of a tree from left to right. -/
def yield (tot : Nat → List Nat) : Tree → List Nat
  | .leaf a => [a]
  | .node m cs => (tot m).flatMap fun i => yield tot (cs i)

/-- At most `k` methods on every path. -/
inductive HeightLE (P : Problem) : Tree → Nat → Prop
  | leaf {a k : Nat} : HeightLE P (.leaf a) k
  | node {m k : Nat} {cs : Nat → Tree} : (∀ i < (P.sub m).length, HeightLE P (cs i) k) → HeightLE P (.node m cs) (k + 1)

theorem canon_snd (tot : Nat → List Nat) (tr : Tree) : (canon tot tr).map (·.2) = yield tot tr := by
  induction tr with
  | leaf a => rfl
  | node m cs ih =>
    simp only [canon, yield, List.map_flatMap, List.map_map]
    congr 1
    funext i
    rw [← ih i]
    rfl

variable {P : Problem} {tot : Nat → List Nat}

theorem transGen_rank {m : Nat} {rank : Nat → Nat} (hr : ∀ i j, (i, j) ∈ P.ord m → rank i < rank j) {i j : Nat}
    (h : TransGen (P.OrdRel m) i j) : rank i < rank j := by
  induction h with
  | single h => exact hr _ _ h
  | tail _ h ih => exact ih.trans (hr _ _ h)

theorem mem_canon (hP : P.WF) (ht : TotOK P tot) {t : Nat} {tr : Tree} (hv : Valid P t tr) : ∀ p a,
    (p, a) ∈ canon tot tr ↔ LeafAt P tr p a := by
  induction hv with
  | leaf h =>
    intro p b
    rw [leafAt_leaf]
    simp [canon]
  | @node m cs hm hc ih =>
    intro p a
    rw [leafAt_node]
    simp only [canon, List.mem_flatMap, List.mem_map, Prod.mk.injEq]
    constructor
    · rintro ⟨i, hi, x, hx, rfl, rfl⟩
      have hi' := List.mem_range.1 ((ht m hm).1.mem_iff.1 hi)
      exact ⟨i, x.1, rfl, hi', (ih i _ (List.getElem?_eq_getElem hi') x.1 x.2).1 hx⟩
    · rintro ⟨i, q, rfl, hi, h⟩
      exact ⟨i, (ht m hm).1.mem_iff.2 (List.mem_range.2 hi), (q, a), (ih i _ (List.getElem?_eq_getElem hi) q a).2 h, rfl, rfl⟩

theorem canon_pairwise (hP : P.WF) (ht : TotOK P tot) {t : Nat} {tr : Tree} (hv : Valid P t tr) :
    (canon tot tr).Pairwise fun x y => Before P tr x.1 y.1 ∧ ¬ Before P tr y.1 x.1 ∧ x.1 ≠ y.1 := by
  induction hv with
  | leaf h => simp [canon]
  | @node m cs hm hc ih =>
    obtain ⟨rank, hr⟩ := hP.ord_acyclic m hm
    have hirr : ∀ i, ¬ TransGen (P.OrdRel m) i i := fun i h => absurd (transGen_rank hr h) (by omega)
    rw [canon, List.pairwise_flatMap]
    refine ⟨fun i hi => ?_, ?_⟩
    · have hi' := List.mem_range.1 ((ht m hm).1.mem_iff.1 hi)
      rw [List.pairwise_map]
      refine (ih i _ (List.getElem?_eq_getElem hi')).imp fun {x y} h => ⟨.same h.1, fun h' => ?_, fun h' => ?_⟩
      · rcases before_node_iff.1 h' with h' | h'
        · exact h.2.1 h'.2
        · exact hirr i h'
      · exact h.2.2 (List.cons.inj h').2
    · refine (ht m hm).2.imp fun {i j} hij x hx y hy => ?_
      rw [List.mem_map] at hx hy
      obtain ⟨x', -, rfl⟩ := hx
      obtain ⟨y', -, rfl⟩ := hy
      have hne : i ≠ j := by rintro rfl; exact hirr i hij
      refine ⟨.diff hij, fun h' => ?_, fun h' => ?_⟩
      · rcases before_node_iff.1 h' with h' | h'
        · exact hne h'.1.symm
        · have h1 := transGen_rank hr h'
          have h2 := transGen_rank hr hij
          omega
      · exact hne (List.cons.inj h').1

/-- The linearisation of a totally ordered decomposition. -/
theorem linearises_canon (hP : P.WF) (ht : TotOK P tot) {t : Nat} {tr : Tree} (hv : Valid P t tr) :
    Linearises P tr ((canon tot tr).map (·.1)) (yield tot tr) := by
  have hp := canon_pairwise hP ht hv
  refine ⟨?_, fun p => ?_, ?_, ?_⟩
  · rw [List.Nodup, List.pairwise_map]
    exact hp.imp fun h => h.2.2
  · rw [List.mem_map]
    constructor
    · rintro ⟨x, hx, rfl⟩
      exact ⟨x.2, (mem_canon hP ht hv x.1 x.2).1 hx⟩
    · rintro ⟨a, ha⟩
      exact ⟨(p, a), (mem_canon hP ht hv p a).2 ha, rfl⟩
  · rw [List.pairwise_map]
    exact hp.imp fun h => h.2.1
  · rw [← canon_snd, List.forall₂_map_left_iff, List.forall₂_map_right_iff, List.forall₂_same]
    exact fun x hx => (mem_canon hP ht hv x.1 x.2).1 hx

/-- It is the only one. -/
theorem linearises_unique (hP : P.WF) (ht : TotOK P tot) {t : Nat} {tr : Tree} (hv : Valid P t tr) {occ : List (List Nat)}
    {π : List Nat} (h : Linearises P tr occ π) : π = yield tot tr := by
  have hc := linearises_canon hP ht hv
  have hperm : occ.Perm ((canon tot tr).map (·.1)) := by
    rw [List.perm_ext_iff_of_nodup h.nodup hc.nodup]
    intro p
    rw [h.all, hc.all]
  have hp := canon_pairwise hP ht hv
  have hocc : occ = (canon tot tr).map (·.1) := by
    refine List.Perm.eq_of_pairwise ?_ h.order hc.order hperm
    intro p q hp1 hq1 h1 h2
    rw [hperm.mem_iff, List.mem_map] at hp1
    rw [List.mem_map] at hq1
    obtain ⟨x, hx, rfl⟩ := hp1
    obtain ⟨y, hy, rfl⟩ := hq1
    obtain ⟨i, hi, rfl⟩ := List.mem_iff_getElem.1 hx
    obtain ⟨j, hj, rfl⟩ := List.mem_iff_getElem.1 hy
    rcases Nat.lt_trichotomy i j with hij | hij | hij
    · exact absurd (List.pairwise_iff_getElem.1 hp i j hi hj hij).1 h2
    · subst hij; rfl
    · exact absurd (List.pairwise_iff_getElem.1 hp j i hj hi hij).1 h1
  subst hocc
  have h1 := h.labels
  have h2 := hc.labels
  clear h hperm
  generalize (canon tot tr).map (·.1) = l at *
  generalize yield tot tr = ρ at *
  clear hc hp
  induction h1 generalizing ρ with
  | nil => cases h2; rfl
  | cons hab _ ih =>
    cases h2 with
    | cons hab' h2 => rw [LeafAt.unique hab hab', ih _ h2]

theorem HeightLE.mono {tr : Tree} {k : Nat} (h : HeightLE P tr k) : ∀ k', k ≤ k' → HeightLE P tr k' := by
  induction h with
  | leaf => exact fun _ _ => .leaf
  | node _ ih =>
    intro k' hk
    obtain ⟨j, rfl⟩ : ∃ j, k' = j + 1 := ⟨k' - 1, by omega⟩
    exact .node fun i hi => ih i hi j (by omega)

/-- Every complete decomposition has a height. -/
theorem exists_height {t : Nat} {tr : Tree} (hv : Valid P t tr) : ∃ k, HeightLE P tr k := by
  induction hv with
  | leaf h => exact ⟨0, .leaf⟩
  | @node m cs hm hc ih =>
    have : ∀ n ≤ (P.sub m).length, ∃ k, ∀ i < n, HeightLE P (cs i) k := by
      intro n
      induction n with
      | zero => exact fun _ => ⟨0, by simp⟩
      | succ n ihn =>
        intro hn
        obtain ⟨k, hk⟩ := ihn (by omega)
        obtain ⟨k', hk'⟩ := ih n _ (List.getElem?_eq_getElem (by omega))
        refine ⟨max k k', fun i hi => ?_⟩
        by_cases hin : i = n
        · subst hin; exact hk'.mono _ (by omega)
        · exact (hk i (by omega)).mono _ (by omega)
    obtain ⟨k, hk⟩ := this _ (Nat.le_refl _)
    exact ⟨k + 1, .node hk⟩

/-- `π` is a plan whose decomposition has at most `k` levels. -/
def SolutionOfHeight (P : Problem) (k : Nat) (π : List Nat) : Prop :=
  ∃ tr, Valid P P.init tr ∧ HeightLE P tr k ∧ (∃ occ, Linearises P tr occ π) ∧ ∃ s', Exec P P.initState π s' ∧ P.GoalState s'

theorem SolutionOfHeight.isSolution {k : Nat} {π : List Nat} (h : SolutionOfHeight P k π) : IsSolution P π := by
  obtain ⟨tr, h1, -, h2, h3⟩ := h
  exact ⟨_, tr, h1, rfl, h2, h3⟩

theorem IsSolution.height {π : List Nat} (h : IsSolution P π) : ∃ k, ∀ k' ≥ k, SolutionOfHeight P k' π := by
  obtain ⟨_, tr, h1, -, h2, h3⟩ := h
  obtain ⟨k, hk⟩ := exists_height h1
  exact ⟨k, fun k' hk' => ⟨tr, h1, hk.mono k' hk', h2, h3⟩⟩

/-- Solutions of totally ordered problems are yields of trees. -/
theorem solutionOfHeight_iff (hP : P.WF) (ht : TotOK P tot) {k : Nat} {π : List Nat} : SolutionOfHeight P k π ↔
    ∃ tr, Valid P P.init tr ∧ HeightLE P tr k ∧ π = yield tot tr ∧ ∃ s', Exec P P.initState π s' ∧ P.GoalState s' := by
  constructor
  · rintro ⟨tr, h1, h2, ⟨occ, h3⟩, h4⟩
    exact ⟨tr, h1, h2, linearises_unique hP ht h1 h3, h4⟩
  · rintro ⟨tr, h1, h2, rfl, h4⟩
    exact ⟨tr, h1, h2, ⟨_, linearises_canon hP ht h1⟩, h4⟩

end Verif.Htn
