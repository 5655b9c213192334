import Verif.Search
import Mathlib.Data.List.Perm.Basic
import Mathlib.Order.Basic

/-! # Model of `OneQueueWAStarFringe`

`std::priority_queue` is not part of the repository.  It is modelled by its specification:
a multiset of nodes; `top`/`pop` remove one of the nodes that are not below another node in the
order of the comparator; which one is taken is decided by an arbitrary oracle. -/

namespace Verif.Prog

open Verif.Htn

/-- `enum aStar` (src/search/fringes/OneQueueWAStarFringe.h 13). -/
inductive AStar
  | none | path | action | mixed
deriving DecidableEq

/-- A node in the queue, with `hRand`. -/
structure Entry where
  x : SNode
  rand : Nat
deriving DecidableEq, Inhabited

/-- `fValue` as computed by `push` (src/search/fringes/OneQueueWAStarFringe.cpp 36-48). -/
def fval (opt : AStar) (w : Int) (x : SNode) : Int :=
  (x.hv[0]?.getD 0) * w + match opt with
    | .none => 0
    | .path => x.node.depth
    | .action => x.node.costs
    | .mixed => x.node.mixed

/-- The loop over the further heuristic values (src/search/fringes/OneQueueWAStarFringe.cpp
17-21) for indices `i, ..., i + k - 1`. -/
def tieLess (a b : Entry) : Nat → Nat → Bool
  | _, 0 => decide (a.rand > b.rand)
  | i, k + 1 =>
    if a.x.hv[i]?.getD 0 ≠ b.x.hv[i]?.getD 0 then decide (a.x.hv[i]?.getD 0 > b.x.hv[i]?.getD 0)
    else tieLess a b (i + 1) k

/-- `TieBreakingNodePointerComaprator::operator()`
(src/search/fringes/OneQueueWAStarFringe.cpp 13-24). -/
def cmpLess (numH : Nat) (a b : Entry) : Bool :=
  if a.x.f.getD 0 ≠ b.x.f.getD 0 then decide (a.x.f.getD 0 > b.x.f.getD 0)
  else tieLess a b 1 (numH - 1)

/-- The queue and the number of calls of `rand()`. -/
structure WFringe where
  q : List Entry
  calls : Nat
deriving DecidableEq, Inhabited

/-- `OneQueueWAStarFringe::push` (src/search/fringes/OneQueueWAStarFringe.cpp 36-50). -/
def wpush (opt : AStar) (w : Int) (rnd : Nat → Nat) (fr : WFringe) (x : SNode) : WFringe :=
  { q := ⟨{ x with f := some (fval opt w x) }, rnd fr.calls⟩ :: fr.q, calls := fr.calls + 1 }

/-- Entries that are not below another entry: possible results of `top()`. -/
def tops (numH : Nat) (q : List Entry) : List Entry :=
  q.filter fun a => q.all fun b => !cmpLess numH a b

/-- `isEmpty`, `pop` (src/search/fringes/OneQueueWAStarFringe.cpp 26-34).  `choice` is the
oracle deciding between several possible results of `top()`. -/
def wpop (numH : Nat) (choice : List Entry → Nat) (fr : WFringe) : Option (SNode × WFringe) :=
  match (tops numH fr.q)[choice fr.q % (tops numH fr.q).length]? with
  | none => none
  | some e => some (e.x, { fr with q := fr.q.erase e })

/-- Contents. -/
def witems (fr : WFringe) : List SNode := fr.q.map Entry.x

/-! ## The comparator is a strict weak order

(Otherwise using it with `std::priority_queue` would be undefined behaviour.) -/

/-- The comparator compares the list of numbers `f, h1, ..., hRand` lexicographically. -/
def tieKey (a : Entry) : Nat → Nat → List Int
  | _, 0 => [(a.rand : Int)]
  | i, k + 1 => (a.x.hv[i]?.getD 0) :: tieKey a (i + 1) k

def entryKey (numH : Nat) (a : Entry) : List Int := (a.x.f.getD 0) :: tieKey a 1 (numH - 1)

theorem tieLess_iff (a b : Entry) : ∀ k i, tieLess a b i k = true ↔ tieKey b i k < tieKey a i k := by
  intro k
  induction k with
  | zero => intro i; simp [tieLess, tieKey, List.cons_lt_cons_iff]
  | succ k ih =>
    intro i
    simp only [tieLess, tieKey, List.cons_lt_cons_iff]
    by_cases h : a.x.hv[i]?.getD 0 = b.x.hv[i]?.getD 0
    · rw [if_neg (by simpa using h), ih, h]
      simp
    · rw [if_pos (by simpa using h)]
      simp only [decide_eq_true_eq, gt_iff_lt]
      constructor
      · exact Or.inl
      · rintro (h' | ⟨h', -⟩)
        · exact h'
        · exact absurd h'.symm h

theorem cmpLess_iff {numH : Nat} {a b : Entry} :
    cmpLess numH a b = true ↔ entryKey numH b < entryKey numH a := by
  simp only [cmpLess, entryKey, List.cons_lt_cons_iff]
  by_cases h : a.x.f.getD 0 = b.x.f.getD 0
  · rw [if_neg (by simpa using h), tieLess_iff, h]
    simp
  · rw [if_pos (by simpa using h)]
    simp only [decide_eq_true_eq, gt_iff_lt]
    constructor
    · exact Or.inl
    · rintro (h' | ⟨h', -⟩)
      · exact h'
      · exact absurd h'.symm h

/-- A non-empty queue has a top. -/
theorem exists_top (numH : Nat) : ∀ (q : List Entry), q ≠ [] → ∃ a ∈ q, ∀ b ∈ q, entryKey numH a ≤ entryKey numH b := by
  intro q
  induction q with
  | nil => intro h; exact absurd rfl h
  | cons a q ih =>
    intro _
    by_cases hq : q = []
    · subst hq; exact ⟨a, by simp, by simp⟩
    · obtain ⟨m, hm, hle⟩ := ih hq
      rcases le_total (entryKey numH a) (entryKey numH m) with h | h
      · refine ⟨a, List.mem_cons_self, fun b hb => ?_⟩
        rcases List.mem_cons.1 hb with rfl | hb
        · exact le_refl _
        · exact le_trans h (hle b hb)
      · refine ⟨m, List.mem_cons_of_mem _ hm, fun b hb => ?_⟩
        rcases List.mem_cons.1 hb with rfl | hb
        · exact h
        · exact hle b hb

theorem mem_tops {numH : Nat} {q : List Entry} {a : Entry} :
    a ∈ tops numH q ↔ a ∈ q ∧ ∀ b ∈ q, entryKey numH a ≤ entryKey numH b := by
  simp only [tops, List.mem_filter, List.all_eq_true]
  refine and_congr_right fun _ => forall_congr' fun b => forall_congr' fun _ => ?_
  rw [Bool.not_eq_true', ← Bool.not_eq_true, cmpLess_iff, not_lt]

theorem wpop_spec {numH : Nat} {choice : List Entry → Nat} {fr : WFringe} :
    (wpop numH choice fr = none ↔ fr.q = []) ∧
    ∀ x fr', wpop numH choice fr = some (x, fr') →
      ∃ e ∈ fr.q, e.x = x ∧ fr'.q = fr.q.erase e ∧ fr'.calls = fr.calls ∧
        ∀ b ∈ fr.q, entryKey numH e ≤ entryKey numH b := by
  constructor
  · constructor
    · intro h
      by_contra hne
      obtain ⟨a, ha, hle⟩ := exists_top numH fr.q hne
      have hmem : a ∈ tops numH fr.q := mem_tops.2 ⟨ha, hle⟩
      have hlt : choice fr.q % (tops numH fr.q).length < (tops numH fr.q).length :=
        Nat.mod_lt _ (List.length_pos_of_mem hmem)
      simp [wpop, List.getElem?_eq_getElem hlt] at h
    · intro h
      simp [wpop, h, tops]
  · intro x fr' h
    unfold wpop at h
    split at h
    · simp at h
    · rename_i e he
      simp only [Option.some.injEq, Prod.mk.injEq] at h
      obtain ⟨rfl, rfl⟩ := h
      obtain ⟨h1, h2⟩ := mem_tops.1 (List.mem_of_getElem? he)
      exact ⟨e, h1, rfl, rfl, rfl, h2⟩

end Verif.Prog
