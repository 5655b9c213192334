import Verif.Reach
import Verif.LmCut
import Verif.AddFF
import Verif.IntSort
import Mathlib.Data.Set.Finite.List
import Mathlib.Data.Set.Finite.Lattice
import Mathlib.Data.Set.Finite.Basic
import Mathlib.Order.Bounds.Basic

/-! # Model of the relaxed composition model and of the heuristics `hhRC2`

The classical model built by `RCModelFactory` has, besides the state facts, one fact per action (it can be
obtained by decomposition: top-down reachable) and one fact per task (it has been built bottom-up); methods
become actions that build a task from its subtasks. -/

namespace Verif.Rc

open Verif.Htn Verif.Prog Verif.TaskCounter Verif.Strips Verif.IntSets Verif.Reach Relation

section model
variable (P : Problem) (nA nT : Nat)

/-- `RCModelFactory::t2tdr` (src/heuristics/rcHeuristics/RCModelFactory.cpp 273-275). -/
def tdr (t : Nat) : Nat := P.numFacts + t

/-- `RCModelFactory::t2bur` (RCModelFactory.cpp 277-279); `nA` is `numActions`. -/
def bur (t : Nat) : Nat := P.numFacts + nA + t

/-- `RCModelFactory::getRCmodelSTRIPS` (RCModelFactory.cpp 24-144; `nT` is `numTasks`).  Names, variables, delete
lists and the unused initial state and goal are left out. -/
def rcModel (costM costA : Nat) : Strips where
  numFacts := P.numFacts + nA + nT
  numOps := nA + P.numMethods
  prec o := if o < nA then P.prec o ++ [tdr P o] else (keys (distinctSubs P (o - nA))).map (bur P nA)
  add o := if o < nA then P.add o ++ [bur P nA o] else [bur P nA (P.head (o - nA))]
  cost o := if o < nA then (if costA = 0 then P.cost o else costA) else costM

/-- `eEstimate` (src/heuristics/rcHeuristics/hhRC2.h 21-23). -/
inductive Est
  | distance | mixed | costs
deriving DecidableEq

/-- The model chosen by the constructor (hhRC2.h 60-72). -/
def Est.model : Est → Strips
  | .costs => rcModel P nA nT 0 0
  | .mixed => rcModel P nA nT 1 0
  | .distance => rcModel P nA nT 1 1

/-- Calls of `bucketSet::insert` in a loop. -/
def insertAllB : List Nat → Bucket → Option Bucket
  | [], b => some b
  | i :: l, b =>
    match b.insert i with
    | none => none
    | some b => insertAllB l b

/-- The loops that insert the reachable actions of some steps (hhRC2.h 140-155).  Outcome `none`: no set is stored
with a step, or an access outside an array. -/
def insertReachB (c : Cache) : List Nat → Bucket → Option Bucket
  | [], b => some b
  | u :: us, b =>
    match c u with
    | none => none
    | some l =>
      match insertAllB ((l.filter fun t => decide (t < nA)).map (tdr P)) b with
      | none => none
      | some b => insertReachB c us b

/-- The initial state of the classical problem (hhRC2.h 132-155). -/
def rcS0 (c : Cache) (n : Node) (b : Bucket) : Option Bucket := do
  let b ← insertAllB ((List.range P.numFacts).filter fun i => n.state[i]?.getD false) b.clear
  let b ← insertReachB P nA c n.abs b
  insertReachB P nA c n.prims b

/-- The goal of the classical problem (hhRC2.h 158-166). -/
def rcGoal (n : Node) (g : NoDel) : Option NoDel := do
  let g ← g.clear.insertAll P.goal
  g.insertAll ((keys n.contained).map (bur P nA))

/-- The correction for tasks that are contained several times (hhRC2.h 227-246): `w t` is added for every further
copy of `t`.  Outcome `none`: the sum exceeds the range of `int` (`U` is `INT_MAX`). -/
def addCorr (U : Nat) (w : Nat → Nat) : Counter → Nat → Option Nat
  | [], v => some v
  | (t, k) :: c, v =>
    if 1 < k then
      if v + w t * (k - 1) ≤ U then addCorr U w c (v + w t * (k - 1)) else none
    else addCorr U w c v

/-- What is added per copy (hhRC2.h 234-242): `useAdmissibleCostEstimate` is set whenever costs are estimated
and the count is corrected (80-97), so that `minEstimatedCosts` is never read; `mi` is `minImpliedDistance`. -/
def Est.weight (mi : Nat → Nat) : Est → Nat → Nat
  | .costs, t => if t < nA then P.cost t else 0
  | .mixed, _ => 0
  | .distance, t => mi t

/-- The sets that are members of `hhRC2`. -/
structure RcSets where
  s0 : Bucket
  g : NoDel

/-- Parameters of the heuristic: `estimate`, `correctTaskCount`, `minImpliedDistance`, and `getHeuristicValue` of the
inner heuristic (value and cuts). -/
structure RcOpt where
  est : Est
  correct : Bool
  mi : Nat → Nat
  inner : List Nat → List Nat → Option (Nat × List (List Nat))

/-- `hhRC2::setHeuristicValue(n)` (hhRC2.h 128-248): the value and the cuts stored by the inner heuristic.  The
inner heuristic gets the elements of the two sets in the order in which they are iterated (C29). -/
def rcValue (U : Nat) (o : RcOpt) (c : Cache) (n : Node) (st : RcSets) : Option (RcSets × Nat × List (List Nat)) := do
  let b ← rcS0 P nA c n st.s0
  let g ← rcGoal P nA n st.g
  let r ← o.inner b.elems g.ints
  let v ← (if o.correct && r.1 != U then addCorr U (o.est.weight P nA o.mi) n.contained r.1 else some r.1)
  return (⟨b, g⟩, v, r.2)

/-- `hhRC2<hsAddFF>` with `heuristic = sasFF` (SearchEngine.cpp 340-341): values of `hsAddFF::getHeuristicValue`; no
cuts are stored (hhRC2.h 86-92). -/
def ffInner (M : Strips) (pq : PQ) (U cap : Nat) (rb0 : Nat → Option Nat) (fuel : Nat) (S G : List Nat) :
    Option (Nat × List (List Nat)) :=
  match addFF M pq U true cap rb0 fuel S G with
  | some .unreachable => some (U, [])
  | some .overflow => some (U - 2, [])
  | some (.val v) => some (v, [])
  | _ => none

/-- `hsFilter::getHeuristicValue` (src/heuristics/rcHeuristics/hsFilter.cpp 20-26): the inner `hsAddFF` computes `sasFF`
(hsAddFF.h 47). -/
def filterInner (M : Strips) (pq : PQ) (U cap : Nat) (rb0 : Nat → Option Nat) (fuel : Nat) (S G : List Nat) :
    Option (Nat × List (List Nat)) :=
  match ffInner M pq U cap rb0 fuel S G with
  | some (r, _) => some (if r = U then U else 0, [])
  | none => none

/-- The binary search for the border between actions and methods (hhRC2.h 189-198).  Outcome `none`: access outside the
array (or fuel). -/
def splitLoop (lm : List Nat) : Nat → Nat → Nat → Option Nat
  | 0, _, _ => none
  | f + 1, r, l =>
    if r + 1 = l then some l
    else
      match lm[(r + l) / 2]? with
      | none => none
      | some x => if x < nA then splitLoop lm f ((r + l) / 2) l else splitLoop lm f r ((r + l) / 2)

/-- `firstMethod` of a sorted cut (hhRC2.h 183-200). -/
def firstMethod (lm : List Nat) : Option Nat :=
  match lm.head?, lm.getLast? with
  | some a, some b =>
    if nA ≤ a then some 0 else if b < nA then some lm.length else splitLoop nA lm (lm.length + 1) 0 (lm.length - 1)
  | _, _ => none

/-- The treatment of a stored cut (hhRC2.h 173-208): sorted, index of the first method, and method numbers made to
fit the HTN model. -/
def splitCut (cut : List Nat) : Option (Nat × List Nat) := do
  let lm ← IntUtil.sort (cut.length + 1) (cut.map Int.ofNat) 0 (cut.length - 1)
  let k ← firstMethod nA (lm.map Int.toNat)
  return (k, (lm.map Int.toNat).take k ++ ((lm.map Int.toNat).drop k).map (· - nA))

end model

/-! ## The classical model -/

/-- What the engine relies on: actions are numbered before abstract tasks, tasks below `nT`; preconditions are
listed once. -/
structure RcOK (P : Problem) (nA nT : Nat) : Prop where
  le : nA ≤ nT
  prim : ∀ t < nT, P.prim t = decide (t < nA)
  init_lt : P.init < nT
  head_lt : ∀ m < P.numMethods, P.head m < nT
  sub_lt : ∀ m < P.numMethods, ∀ t ∈ P.sub m, t < nT
  prec_nodup : ∀ a < nA, (P.prec a).Nodup

variable {P : Problem} {cfg : Cfg} {nA nT : Nat} {cM cA : Nat}

theorem mem_distinct {m t : Nat} : t ∈ keys (distinctSubs P m) ↔ t ∈ P.sub m := by
  obtain ⟨h1, h2⟩ := distinctSubs_spec (P := P) m
  rw [mem_keys_iff h1, h2, List.count_pos_iff]

theorem rcModel_wf (hP : P.WF) (h : RcOK P nA nT) : (rcModel P nA nT cM cA).WF := by
  refine ⟨fun o ho p hp => ?_, fun o ho p hp => ?_, fun o ho => ?_, fun o ho => ?_⟩
  · simp only [rcModel] at ho hp ⊢
    split at hp
    · rcases List.mem_append.1 hp with hp | hp
      · have := hP.prec_lt o p hp; omega
      · simp [tdr] at hp; omega
    · obtain ⟨t, ht, rfl⟩ := List.mem_map.1 hp
      have := h.sub_lt (o - nA) (by omega) t (mem_distinct.1 ht)
      simp only [bur]; omega
  · simp only [rcModel] at ho hp ⊢
    split at hp
    · rcases List.mem_append.1 hp with hp | hp
      · have := hP.add_lt o p hp; omega
      · have := h.le
        simp [bur] at hp; omega
    · have := h.head_lt (o - nA) (by omega)
      simp [bur] at hp; omega
  · simp only [rcModel] at ho ⊢
    split
    · rename_i hlt
      refine List.nodup_append.2 ⟨h.prec_nodup o hlt, by simp, fun a ha b hb => ?_⟩
      have := hP.prec_lt o a ha
      simp [tdr] at hb; omega
    · have : (keys (distinctSubs P (o - nA))).Nodup :=
        (distinctSubs_spec (P := P) (o - nA)).1.sorted.imp fun h => Nat.ne_of_lt h
      exact this.map fun a b hab => by simp [bur] at hab; exact hab
  · simp only [rcModel] at ho ⊢
    split
    · simp
    · have hne := hP.sub_ne (o - nA) (by omega)
      obtain ⟨t, ht⟩ := List.exists_mem_of_ne_nil _ hne
      exact List.ne_nil_of_mem (List.mem_map_of_mem (mem_distinct.2 ht))

/-! ## From solutions of the network to relaxed plans -/

/-- Operators of methods. -/
def mOps (nA : Nat) (ms : List Nat) : List Nat := ms.map (nA + ·)

/-- The method occurs in the tree. -/
inductive Uses (P : Problem) : Tree → Nat → Prop
  | here {m : Nat} {cs : Nat → Tree} : Uses P (.node m cs) m
  | child {m m' : Nat} {cs : Nat → Tree} {i : Nat} : i < (P.sub m).length → Uses P (cs i) m' → Uses P (.node m cs) m'

/-- Plans for several facts are joined. -/
theorem join {α : Type} {M : Strips} {T : Nat → Prop} (b c : α → Nat) (D : α → Nat → Prop) : ∀ L : List α,
    (∀ x ∈ L, ∃ ms T', RelPlan M T (mOps nA ms) T' ∧ ms.length = c x ∧ T' (b x) ∧ ∀ m ∈ ms, D x m) →
    ∃ ms T', RelPlan M T (mOps nA ms) T' ∧ ms.length = (L.map c).sum ∧ (∀ x ∈ L, T' (b x)) ∧
      ∀ m ∈ ms, ∃ x ∈ L, D x m := by
  intro L
  induction L with
  | nil => intro _; exact ⟨[], T, .nil, rfl, by simp, by simp⟩
  | cons x L ih =>
    intro h
    obtain ⟨m1, T1, r1, l1, k1, d1⟩ := h x List.mem_cons_self
    obtain ⟨m2, T2, r2, l2, k2, d2⟩ := ih fun y hy => h y (List.mem_cons_of_mem _ hy)
    obtain ⟨T3, r3, k3⟩ := r2.mono (s2 := T1) fun f hf => r1.keep hf
    refine ⟨m1 ++ m2, T3, ?_, by simp [l1, l2], fun y hy => ?_, fun m hm => ?_⟩
    · rw [mOps, List.map_append]; exact r1.append r3
    rotate_left
    · rcases List.mem_append.1 hm with hm | hm
      · exact ⟨x, List.mem_cons_self, d1 m hm⟩
      · obtain ⟨y, hy, hd⟩ := d2 m hm
        exact ⟨y, List.mem_cons_of_mem _ hy, hd⟩
    · rcases List.mem_cons.1 hy with rfl | hy
      · exact r3.keep k1
      · exact k3 _ (k2 y hy)

/-- The methods of a tree build its task from its leaves. -/
theorem tree_plan {T : Nat → Prop} {t : Nat} {tr : Tree} (hv : Valid P t tr) :
    (∀ p a, LeafAt P tr p a → T (bur P nA a)) →
    ∃ ms T', RelPlan (rcModel P nA nT cM cA) T (mOps nA ms) T' ∧ ms.length = tr.inner P ∧ T' (bur P nA t) ∧
      ∀ m ∈ ms, Uses P tr m := by
  induction hv with
  | leaf _ => intro h; exact ⟨[], T, .nil, rfl, h [] _ .here, by simp⟩
  | @node m cs hm hc ih =>
    intro h
    have := join (nA := nA) (M := rcModel P nA nT cM cA) (T := T) (fun i => bur P nA ((P.sub m)[i]?.getD 0))
      (fun i => (cs i).inner P) (fun i m' => Uses P (cs i) m') (List.range (P.sub m).length) fun i hi => by
        have hi := List.mem_range.1 hi
        obtain ⟨ms, T', r, l, k, d⟩ := ih i (P.sub m)[i] (List.getElem?_eq_getElem hi) fun p a hl => h (i :: p) a (.child hi hl)
        exact ⟨ms, T', r, l, by rw [List.getElem?_eq_getElem hi]; exact k, d⟩
    obtain ⟨ms, T', r, l, k, d⟩ := this
    have hlt : ¬ nA + m < nA := by omega
    refine ⟨ms ++ [m], fun f => T' f ∨ f ∈ (rcModel P nA nT cM cA).add (nA + m), ?_, ?_, ?_, fun m' hm' => ?_⟩
    rotate_left 3
    · rcases List.mem_append.1 hm' with hm' | hm'
      · obtain ⟨i, hi, hu⟩ := d m' hm'
        exact .child (List.mem_range.1 hi) hu
      · rw [List.mem_singleton.1 hm']; exact .here
    · rw [mOps, List.map_append]
      refine r.append (.cons (by simp [rcModel]; omega) (fun p hp => ?_) .nil)
      simp only [rcModel, hlt, if_false, Nat.add_sub_cancel_left] at hp
      obtain ⟨t, ht, rfl⟩ := List.mem_map.1 hp
      obtain ⟨i, hi, rfl⟩ := List.getElem_of_mem (mem_distinct.1 ht)
      have := k i (List.mem_range.2 hi)
      rwa [List.getElem?_eq_getElem hi] at this
    · simp only [List.length_append, l, Tree.inner, List.length_singleton]
      rw [Nat.add_comm, ← List.sum_toFinset _ List.nodup_range, show (List.range (P.sub m).length).toFinset = Finset.range (P.sub m).length from by ext; simp]
    · right; simp [rcModel, hlt]

/-- Execution of actions. -/
theorem exec_plan {s s' : State} {π : List Nat} (h : Exec P s π s') :
    ∀ {T : Nat → Prop}, (∀ f, s f → T f) → (∀ a ∈ π, a < nA ∧ T (tdr P a)) →
    ∃ T', RelPlan (rcModel P nA nT cM cA) T π T' ∧ (∀ f, T f → T' f) ∧ (∀ f, s' f → T' f) ∧ ∀ a ∈ π, T' (bur P nA a) := by
  induction h with
  | nil s => intro T h1 h2; exact ⟨T, .nil, fun _ h => h, h1, by simp⟩
  | @cons s s' a π happ _ ih =>
    intro T h1 h2
    obtain ⟨ha, hta⟩ := h2 a List.mem_cons_self
    obtain ⟨T', r, k0, k1, k2⟩ := ih (T := fun f => T f ∨ f ∈ (rcModel P nA nT cM cA).add a) (fun f hf => by
      rcases hf with hf | hf
      · right; simp [rcModel, ha, hf]
      · exact .inl (h1 f hf.1)) fun b hb => ⟨(h2 b (List.mem_cons_of_mem _ hb)).1, .inl (h2 b (List.mem_cons_of_mem _ hb)).2⟩
    refine ⟨T', .cons (by simp [rcModel]; omega) (fun p hp => ?_) r, fun f hf => k0 f (.inl hf), k1, fun b hb => ?_⟩
    · simp only [rcModel, ha, if_true, List.mem_append, List.mem_singleton] at hp
      rcases hp with hp | rfl
      · exact h1 p (happ p hp)
      · exact hta
    · rcases List.mem_cons.1 hb with rfl | hb
      · exact k0 _ (.inr (by simp [rcModel, ha]))
      · exact k2 b hb

/-- The actions of a decomposition can be obtained from its task. -/
theorem leaf_reach {t tr p a} (hv : Valid P t tr) (hl : LeafAt P tr p a) : TaskReach P t a ∧ P.prim a = true := by
  induction hl generalizing t with
  | here => cases hv with
    | leaf h => exact ⟨.refl, h⟩
  | @child m cs i p a hi _ ih => cases hv with
    | node hm hc =>
      obtain ⟨h1, h2⟩ := ih (hc i _ (List.getElem?_eq_getElem hi))
      exact ⟨.head ⟨m, hm, rfl, List.getElem_mem hi⟩ h1, h2⟩

theorem forall₂_mem_right {α β : Type} {R : α → β → Prop} {l : List α} {r : List β} (h : List.Forall₂ R l r) :
    ∀ b ∈ r, ∃ a ∈ l, R a b := by
  induction h with
  | nil => simp
  | cons h1 _ ih =>
    intro b hb
    rcases List.mem_cons.1 hb with rfl | hb
    · exact ⟨_, List.mem_cons_self, h1⟩
    · obtain ⟨a, ha, hr⟩ := ih b hb
      exact ⟨a, List.mem_cons_of_mem _ ha, hr⟩

theorem forall₂_mem_left {α β : Type} {R : α → β → Prop} {l : List α} {r : List β} (h : List.Forall₂ R l r) :
    ∀ a ∈ l, ∃ b ∈ r, R a b := by
  induction h with
  | nil => simp
  | cons h1 _ ih =>
    intro b hb
    rcases List.mem_cons.1 hb with rfl | hb
    · exact ⟨_, List.mem_cons_self, h1⟩
    · obtain ⟨a, ha, hr⟩ := ih b hb
      exact ⟨a, List.mem_cons_of_mem _ ha, hr⟩

/-- Occurrences with the same label. -/
theorem forall₂_count {α : Type} [DecidableEq α] {R : α → Nat → Prop} {b : Nat} {l : List α} {r : List Nat}
    (h : List.Forall₂ R l r) : ∀ L0 : List α, L0.Nodup → L0 ⊆ l → (∀ x ∈ L0, ∀ y, R x y → y = b) →
    L0.length ≤ r.count b := by
  induction h with
  | nil => intro L0 _ hs _; rw [List.subset_nil.1 hs]; simp
  | @cons x y l r hxy _ ih =>
    intro L0 hnd hs hb
    have h1 := ih (L0.erase x) (hnd.erase x) (fun z hz => by
      have hz' := hs (List.mem_of_mem_erase hz)
      rcases List.mem_cons.1 hz' with rfl | h
      · exact absurd rfl ((hnd.mem_erase_iff).1 hz).1
      · exact h) fun z hz => hb z (List.mem_of_mem_erase hz)
    by_cases hx : x ∈ L0
    · have := hb x hx y hxy
      subst this
      rw [List.count_cons_self]
      rw [List.length_erase_of_mem hx] at h1
      omega
    · rw [List.erase_of_not_mem hx] at h1
      rw [List.count_cons]
      omega

/-- Every decomposition of a network gives a relaxed plan of the classical problem: its actions occur in the
solution, its methods are used in the trees and are not more than the decompositions; and every action contained in
the network is executed as often as it is contained. -/
theorem relaxed_plan_tr (hP : P.WF) (hR : RcOK P nA nT) {I : Finset Nat} {lab : Nat → Nat} {lt : Nat → Nat → Prop}
    {s s' : State} {π : List Nat} {tr : Nat → Tree} {occ : List (Nat × List Nat)} (hlab : ∀ u ∈ I, lab u < nT)
    (h : LinNet P I lab lt tr occ π) (hex : Exec P s π s') (hgoal : P.GoalState s') {S G : List Nat}
    (hs : ∀ f, s f → f ∈ S) (ht : ∀ u ∈ I, ∀ t < nA, TaskReach P (lab u) t → tdr P t ∈ S)
    (hG : ∀ f ∈ G, f ∈ P.goal ∨ ∃ u ∈ I, f = bur P nA (lab u)) :
    (∃ ρ ms, SolvesRel (rcModel P nA nT cM cA) S G ρ ∧ ρ.Nodup ∧ ms.length = ∑ u ∈ I, (tr u).inner P ∧
      ρ ⊆ π ++ mOps nA ms ∧ ∀ m ∈ ms, ∃ u ∈ I, Uses P (tr u) m) ∧
    (∀ a ∈ π, a < nA) ∧ ∀ a < nA, (I.filter fun u => lab u = a).card ≤ π.count a := by
  obtain ⟨hv, hnd, hall, -, hl⟩ := h
  have hlt : ∀ t, (∃ u ∈ I, TaskReach P (lab u) t) → t < nT := by
    rintro t ⟨u, hu, hr⟩
    have hr' := hr
    induction hr' with
    | refl => exact hlab u hu
    | tail _ hbc _ =>
      obtain ⟨m, hm, -, ht⟩ := hbc
      exact hR.sub_lt m hm _ ht
  have hπ : ∀ a ∈ π, ∃ u ∈ I, TaskReach P (lab u) a ∧ a < nA := by
    intro a ha
    obtain ⟨x, hx, hxa⟩ := forall₂_mem_right hl a ha
    have hxI := ((hall x).1 hx).1
    obtain ⟨h1, h2⟩ := leaf_reach (hv _ hxI) hxa
    refine ⟨x.1, hxI, h1, ?_⟩
    have := hR.prim a (hlt a ⟨x.1, hxI, h1⟩)
    rw [h2] at this
    simpa using this.symm
  have hleaf : ∀ u ∈ I, ∀ p a, LeafAt P (tr u) p a → a ∈ π := by
    intro u hu p a hla
    obtain ⟨b, hb, hlb⟩ := forall₂_mem_left hl (u, p) ((hall (u, p)).2 ⟨hu, a, hla⟩)
    rw [hla.unique hlb]; exact hb
  refine ⟨?_, fun a ha => (hπ a ha).choose_spec.2.2, fun a ha => ?_⟩
  · obtain ⟨T', r, k0, k1, k2⟩ := exec_plan (nT := nT) (cM := cM) (cA := cA) hex (nA := nA) (T := (· ∈ S)) hs fun a ha => by
      obtain ⟨u, hu, h1, h2⟩ := hπ a ha
      exact ⟨h2, ht u hu a h2 h1⟩
    obtain ⟨ms, T2, r2, l2, k3, d⟩ := join (nA := nA) (M := rcModel P nA nT cM cA) (T := T') (fun u => bur P nA (lab u))
      (fun u => (tr u).inner P) (fun u m => Uses P (tr u) m) I.toList fun u hu =>
        tree_plan (hv u (Finset.mem_toList.1 hu)) fun p a hla => k2 a (hleaf u (Finset.mem_toList.1 hu) p a hla)
    obtain ⟨ρ, T3, h1, h2, h3, h4⟩ := (r.append r2).dedup _ (Nat.le_refl _)
    refine ⟨ρ, ms, ⟨T3, h3, fun f hf => ?_⟩, h1, by rw [l2, Finset.sum_map_toList], h2, fun m hm => ?_⟩
    · rcases hG f hf with hf | ⟨u, hu, rfl⟩
      · exact h4 f (r2.keep (k1 f (hgoal f hf)))
      · exact h4 _ (k3 u (Finset.mem_toList.2 hu))
    · obtain ⟨u, hu, hd⟩ := d m hm
      exact ⟨u, Finset.mem_toList.1 hu, hd⟩
  · have h0 := forall₂_count (b := a) hl ((I.filter fun u => lab u = a).toList.map fun u => (u, ([] : List Nat)))
      ((Finset.nodup_toList _).map fun x y hxy => by simpa using hxy) (fun x hx => by
        obtain ⟨u, hu, rfl⟩ := List.mem_map.1 hx
        obtain ⟨hu', rfl⟩ := Finset.mem_filter.1 (Finset.mem_toList.1 hu)
        have hp : P.prim (lab u) = true := by rw [hR.prim _ (hlab u hu')]; simpa using ha
        have := (hv u hu').prim_eq hP hp
        exact (hall _).2 ⟨hu', lab u, by rw [this]; exact .here⟩) (fun x hx y hxy => by
        obtain ⟨u, hu, rfl⟩ := List.mem_map.1 hx
        obtain ⟨hu', rfl⟩ := Finset.mem_filter.1 (Finset.mem_toList.1 hu)
        have hp : P.prim (lab u) = true := by rw [hR.prim _ (hlab u hu')]; simpa using ha
        have := (hv u hu').prim_eq hP hp
        simp only [this] at hxy
        exact (leafAt_leaf.1 hxy).2)
    simpa using h0

theorem relaxed_plan (hP : P.WF) (hR : RcOK P nA nT) {I : Finset Nat} {lab : Nat → Nat} {lt : Nat → Nat → Prop}
    {s : State} {π : List Nat} {k : Nat} (hlab : ∀ u ∈ I, lab u < nT) (h : SolvesN P I lab lt s π k) {S G : List Nat}
    (hs : ∀ f, s f → f ∈ S) (ht : ∀ u ∈ I, ∀ t < nA, TaskReach P (lab u) t → tdr P t ∈ S)
    (hG : ∀ f ∈ G, f ∈ P.goal ∨ ∃ u ∈ I, f = bur P nA (lab u)) :
    (∃ ρ ms, SolvesRel (rcModel P nA nT cM cA) S G ρ ∧ ρ.Nodup ∧ ms.length = k ∧ ρ ⊆ π ++ mOps nA ms) ∧
    (∀ a ∈ π, a < nA) ∧ ∀ a < nA, (I.filter fun u => lab u = a).card ≤ π.count a := by
  obtain ⟨tr, occ, hl, hk, s', hex, hgoal⟩ := solvesN_iff.1 h
  obtain ⟨⟨ρ, ms, h1, h2, h3, h4, -⟩, h5⟩ := relaxed_plan_tr (cM := cM) (cA := cA) hP hR hlab hl hex hgoal hs ht hG
  exact ⟨⟨ρ, ms, h1, h2, by rw [h3, hk], h4⟩, h5⟩

/-! ## Costs -/

theorem costOf_append (c : Nat → Nat) (π ρ : List Nat) : costOf c (π ++ ρ) = costOf c π + costOf c ρ := by
  simp [costOf]

theorem costOf_mOps (ms : List Nat) : costOf (rcModel P nA nT cM cA).cost (mOps nA ms) = ms.length * cM := by
  induction ms with
  | nil => simp [mOps, costOf]
  | cons m ms ih =>
    simp only [mOps, List.map_cons, costOf_cons, List.length_cons, Nat.succ_mul] at ih ⊢
    rw [ih]
    simp [rcModel, Nat.add_comm]

theorem costOf_subset {c : Nat → Nat} {ρ σ : List Nat} (hnd : ρ.Nodup) (hs : ρ ⊆ σ) : costOf c ρ ≤ costOf c σ := by
  obtain ⟨l, h1, h2⟩ := hnd.subperm hs
  have h3 : costOf c ρ = costOf c l := ((h1.map c).sum_eq).symm
  have h4 : ∀ {l σ : List Nat}, l.Sublist σ → costOf c l ≤ costOf c σ := by
    intro l σ h
    induction h with
    | slnil => exact Nat.le_refl _
    | cons a _ ih => rw [costOf_cons]; omega
    | cons_cons a _ ih => rw [costOf_cons, costOf_cons]; omega
  rw [h3]; exact h4 h2

theorem costOf_congr {c c' : Nat → Nat} {π : List Nat} (h : ∀ o ∈ π, c o = c' o) : costOf c π = costOf c' π := by
  unfold costOf
  rw [List.map_congr_left h]

/-- The sum of the corrections. -/
def corrSum (w : Nat → Nat) (c : Counter) : Nat := (c.map fun e => w e.1 * (e.2 - 1)).sum

theorem addCorr_spec {U : Nat} {w : Nat → Nat} : ∀ {c : Counter} {v : Nat}, v ≤ U →
    addCorr U w c v = if v + corrSum w c ≤ U then some (v + corrSum w c) else none := by
  intro c
  induction c with
  | nil => intro v hv; simp [addCorr, corrSum, hv]
  | cons e c ih =>
    intro v hv
    obtain ⟨t, k⟩ := e
    have hc : corrSum w ((t, k) :: c) = w t * (k - 1) + corrSum w c := by simp [corrSum]
    unfold addCorr
    rw [hc]
    by_cases h1 : 1 < k
    · rw [if_pos h1]
      by_cases h2 : v + w t * (k - 1) ≤ U
      · rw [if_pos h2, ih h2, Nat.add_assoc]
      · rw [if_neg h2, if_neg (by omega)]
    · have hk : k - 1 = 0 := by omega
      rw [if_neg h1, ih hv, hk, Nat.mul_zero, Nat.zero_add]

/-- Distinct actions and the further copies of contained actions together cost at most as much as the plan. -/
theorem corr_bound {π : List Nat} {c : Counter} (hc : Ok c) (hcnt : ∀ a < nA, cnt c a ≤ π.count a) {ρ ms : List Nat}
    (hπ : ∀ a ∈ π, a < nA) (hnd : ρ.Nodup) (hs : ρ ⊆ π ++ mOps nA ms) (mi : Nat → Nat) :
    costOf (rcModel P nA nT 0 0).cost ρ + corrSum (Est.weight P nA mi .costs) c ≤ P.planCost π := by
  have h1 : costOf (rcModel P nA nT 0 0).cost ρ ≤ ∑ a ∈ π.toFinset, P.cost a := by
    have hd : costOf (rcModel P nA nT 0 0).cost ρ ≤ costOf (rcModel P nA nT 0 0).cost (π.dedup ++ mOps nA ms) :=
      costOf_subset hnd fun o ho => by
        rcases List.mem_append.1 (hs ho) with h | h
        · exact List.mem_append_left _ (List.mem_dedup.2 h)
        · exact List.mem_append_right _ h
    rw [costOf_append, costOf_mOps, Nat.mul_zero, Nat.add_zero] at hd
    refine Nat.le_trans hd (Nat.le_of_eq ?_)
    rw [costOf_congr (c' := P.cost) fun o ho => by simp [rcModel, hπ o (List.mem_dedup.1 ho)], costOf,
      ← List.sum_toFinset _ (List.nodup_dedup π)]
    congr 1
    ext a; simp
  have h2 : P.planCost π = ∑ a ∈ π.toFinset, π.count a * P.cost a := by
    rw [Problem.planCost, Finset.sum_list_map_count]
    simp
  have h3 : corrSum (Est.weight P nA mi .costs) c ≤ ∑ a ∈ π.toFinset, (π.count a - 1) * P.cost a := by
    have e1 : corrSum (Est.weight P nA mi .costs) c =
        ∑ a ∈ (keys c).toFinset, (if a < nA then P.cost a else 0) * (cnt c a - 1) := by
      have hk : (keys c).Nodup := hc.sorted.imp fun h => Nat.ne_of_lt h
      rw [List.sum_toFinset _ hk, corrSum, keys, List.map_map]
      congr 1
      refine List.map_congr_left fun e he => ?_
      simp only [Function.comp, Est.weight]
      rw [cnt_of_mem hc (t := e.1) (k := e.2) he]
    rw [e1]
    have e2 : ∑ a ∈ (keys c).toFinset, (if a < nA then P.cost a else 0) * (cnt c a - 1) =
        ∑ a ∈ (keys c).toFinset.filter (· < nA), P.cost a * (cnt c a - 1) := by
      rw [Finset.sum_filter]
      refine Finset.sum_congr rfl fun a _ => ?_
      split_ifs <;> simp
    rw [e2]
    refine Nat.le_trans (Finset.sum_le_sum (g := fun a => (π.count a - 1) * P.cost a) fun a ha => ?_)
      (Finset.sum_le_sum_of_subset fun a ha => ?_)
    · have := hcnt a (Finset.mem_filter.1 ha).2
      rw [Nat.mul_comm]
      exact Nat.mul_le_mul_right _ (by omega)
    · obtain ⟨h4, h5⟩ := Finset.mem_filter.1 ha
      have h6 := (mem_keys_iff hc).1 (List.mem_toFinset.1 h4)
      have := hcnt a h5
      exact List.mem_toFinset.2 (List.count_pos_iff.1 (by omega))
  rw [h2]
  refine Nat.le_trans (Nat.add_le_add h1 h3) ?_
  rw [← Finset.sum_add_distrib]
  refine Finset.sum_le_sum fun a ha => ?_
  have := List.count_pos_iff.2 (List.mem_toFinset.1 ha)
  obtain ⟨j, hj⟩ : ∃ j, π.count a = j + 1 := ⟨π.count a - 1, by omega⟩
  rw [hj, Nat.add_sub_cancel, Nat.succ_mul, Nat.add_comm]

/-- Without correction. -/
theorem plain_bound {π ρ ms : List Nat} (hπ : ∀ a ∈ π, a < nA) (hnd : ρ.Nodup) (hs : ρ ⊆ π ++ mOps nA ms) :
    costOf (rcModel P nA nT cM cA).cost ρ ≤ (if cA = 0 then P.planCost π else cA * π.length) + ms.length * cM := by
  refine Nat.le_trans (costOf_subset hnd hs) ?_
  rw [costOf_append, costOf_mOps]
  refine Nat.add_le_add_right (Nat.le_of_eq ?_) _
  split_ifs with h
  · exact costOf_congr fun o ho => by simp [rcModel, hπ o ho, h]
  · rw [costOf_congr (c' := fun _ => cA) fun o ho => by simp [rcModel, hπ o ho, h]]
    simp [costOf, Nat.mul_comm]

/-! ## The sets -/

theorem insertAllB_spec : ∀ {l : List Nat} {b : Bucket}, b.Inv → (∀ i ∈ l, i < b.cont.length) →
    ∃ b', insertAllB l b = some b' ∧ b'.Inv ∧ b'.cont.length = b.cont.length ∧
      ∀ x, x ∈ b'.elems ↔ x ∈ l ∨ x ∈ b.elems := by
  intro l
  induction l with
  | nil => intro b h _; exact ⟨b, rfl, h, rfl, by simp⟩
  | cons i l ih =>
    intro b h hl
    obtain ⟨b1, e1, i1, n1, m1⟩ := Bucket.insert_spec h (hl i List.mem_cons_self)
    obtain ⟨b2, e2, i2, n2, m2⟩ := ih i1 fun j hj => by rw [n1]; exact hl j (List.mem_cons_of_mem _ hj)
    refine ⟨b2, by simp only [insertAllB, e1]; exact e2, i2, by rw [n2, n1], fun x => ?_⟩
    rw [m2, m1, List.mem_cons]
    tauto

theorem insertReachB_spec {c : Cache} : ∀ {us : List Nat} {b : Bucket}, b.Inv → P.numFacts + nA ≤ b.cont.length →
    (∀ u ∈ us, c u ≠ none) →
    ∃ b', insertReachB P nA c us b = some b' ∧ b'.Inv ∧ b'.cont.length = b.cont.length ∧
      ∀ x, x ∈ b'.elems ↔ (∃ u ∈ us, ∃ l, c u = some l ∧ ∃ t ∈ l, t < nA ∧ x = tdr P t) ∨ x ∈ b.elems := by
  intro us
  induction us with
  | nil => intro b h _ _; exact ⟨b, rfl, h, rfl, by simp⟩
  | cons u us ih =>
    intro b h hle hc
    cases hu : c u with
    | none => exact absurd hu (hc u List.mem_cons_self)
    | some l =>
      obtain ⟨b1, e1, i1, n1, m1⟩ := insertAllB_spec (l := (l.filter fun t => decide (t < nA)).map (tdr P)) h
        fun i hi => by
          obtain ⟨t, ht, rfl⟩ := List.mem_map.1 hi
          have := (List.mem_filter.1 ht).2
          simp only [decide_eq_true_eq] at this
          simp only [tdr]; omega
      obtain ⟨b2, e2, i2, n2, m2⟩ := ih i1 (by rw [n1]; exact hle) fun v hv => hc v (List.mem_cons_of_mem _ hv)
      refine ⟨b2, by simp only [insertReachB, hu, e1]; exact e2, i2, by rw [n2, n1], fun x => ?_⟩
      rw [m2, m1, List.mem_map]
      constructor
      · rintro (⟨v, hv, h⟩ | ⟨t, ht, rfl⟩ | h)
        · exact .inl ⟨v, List.mem_cons_of_mem _ hv, h⟩
        · obtain ⟨h1, h2⟩ := List.mem_filter.1 ht
          exact .inl ⟨u, List.mem_cons_self, l, hu, t, h1, by simpa using h2, rfl⟩
        · exact .inr h
      · rintro (⟨v, hv, l', hl', t, h1, h2, rfl⟩ | h)
        · rcases List.mem_cons.1 hv with rfl | hv
          · rw [hu] at hl'
            cases hl'
            exact .inr (.inl ⟨t, List.mem_filter.2 ⟨h1, by simpa using h2⟩, rfl⟩)
          · exact .inl ⟨v, hv, l', hl', t, h1, h2, rfl⟩
        · exact .inr (.inr h)

/-- The invariant of the sets. -/
structure SetsOK (P : Problem) (nA nT : Nat) (st : RcSets) : Prop where
  s0 : st.s0.Inv
  s0_len : st.s0.cont.length = P.numFacts + nA + nT
  g : st.g.Inv
  g_len : st.g.bools.length = P.numFacts + nA + nT

/-- The classical problem of a node. -/
structure RcProblem (P : Problem) (nA : Nat) (h : Heap) (n : Node) (S G : List Nat) : Prop where
  nodup : S.Nodup
  mem : ∀ f, f ∈ S ↔ holds n.state f ∨ ∃ t < nA, f = tdr P t ∧ ∃ u ∈ live h n, TaskReach P (taskOf h u) t
  gnodup : G.Nodup
  gmem : ∀ f, f ∈ G ↔ f ∈ P.goal ∨ ∃ u ∈ live h n, f = bur P nA (taskOf h u)

theorem Bucket.clear_length (b : Bucket) : b.clear.cont.length = b.cont.length := by
  unfold Bucket.clear
  split_ifs <;> simp

theorem rcSets_spec (hP : P.WF) (hR : RcOK P nA nT) {h : Heap} {n : Node} (hh : HeapOK h) (hn : NodeOK P h n)
    (hcnt : CounterOK h n) (hlab : ∀ u ∈ live h n, taskOf h u < nT) {last : Nat} (hlast : nA ≤ last) {c : Cache}
    (hc : CacheOK h (fun a b => b < last ∧ TaskReach P a b) c) (hf : ∀ u ∈ n.firsts, c u ≠ none) {st : RcSets}
    (hst : SetsOK P nA nT st) :
    ∃ b g, rcS0 P nA c n st.s0 = some b ∧ rcGoal P nA n st.g = some g ∧ SetsOK P nA nT ⟨b, g⟩ ∧
      RcProblem P nA h n b.elems g.ints := by
  obtain ⟨ci, ce⟩ := Bucket.clear_spec hst.s0
  obtain ⟨b1, e1, i1, n1, m1⟩ := insertAllB_spec (l := (List.range P.numFacts).filter fun i => n.state[i]?.getD false) ci
    fun i hi => by
      have := List.mem_range.1 (List.mem_filter.1 hi).1
      rw [Bucket.clear_length, hst.s0_len]; omega
  rw [Bucket.clear_length, hst.s0_len] at n1
  obtain ⟨b2, e2, i2, n2, m2⟩ := insertReachB_spec (P := P) (nA := nA) (c := c) (us := n.abs) i1 (by omega)
    fun u hu => hf u (List.mem_append_right _ hu)
  obtain ⟨b3, e3, i3, n3, m3⟩ := insertReachB_spec (P := P) (nA := nA) (c := c) (us := n.prims) i2 (by omega)
    fun u hu => hf u (List.mem_append_left _ hu)
  obtain ⟨gi, gl⟩ := NoDel.clear_spec hst.g
  have hg0 : st.g.clear.ints = [] := by simp [NoDel.clear]
  obtain ⟨g1, e4, i4, n4, m4⟩ := NoDel.insertAll_spec (l := P.goal) gi fun i hi => by
    have := hP.goal_lt i hi
    rw [gl, hst.g_len]; omega
  have hkey : ∀ t, t ∈ keys n.contained ↔ ∃ u ∈ live h n, taskOf h u = t := fun t => by
    rw [mem_keys_iff hcnt.1, hcnt.2, Finset.card_pos]
    exact ⟨fun ⟨u, hu⟩ => ⟨u, (Finset.mem_filter.1 hu).1, (Finset.mem_filter.1 hu).2⟩,
      fun ⟨u, h1, h2⟩ => ⟨u, Finset.mem_filter.2 ⟨h1, h2⟩⟩⟩
  obtain ⟨g2, e5, i5, n5, m5⟩ := NoDel.insertAll_spec (l := (keys n.contained).map (bur P nA)) i4 fun i hi => by
    obtain ⟨t, ht, rfl⟩ := List.mem_map.1 hi
    obtain ⟨u, hu, rfl⟩ := (hkey t).1 ht
    have := hlab u hu
    rw [n4, gl, hst.g_len]
    simp only [bur]; omega
  refine ⟨b3, g2, ?_, ?_, ⟨i3, by rw [n3, n2, n1], i5, by rw [n5, n4, gl, hst.g_len]⟩, ⟨Bucket.elemsFrom_nodup _ _, fun f => ?_, i5.nodup,
    fun f => ?_⟩⟩
  · simp only [rcS0, e1, e2, Option.bind_eq_bind, Option.bind_some]; exact e3
  · simp only [rcGoal, e4, Option.bind_eq_bind, Option.bind_some]; exact e5
  · have hstate : f ∈ (List.range P.numFacts).filter (fun i => n.state[i]?.getD false) ↔ holds n.state f := by
      simp only [List.mem_filter, List.mem_range, holds]
      constructor
      · rintro ⟨h1, h2⟩
        rw [← hn.state_len] at h1
        rw [List.getElem?_eq_getElem h1] at h2 ⊢
        simpa using h2
      · intro h1
        exact ⟨by rw [← hn.state_len]; exact (List.getElem?_eq_some_iff.1 h1).1, by simp [h1]⟩
    have hr : ∀ us : List Nat, (∀ u ∈ us, u ∈ n.firsts) → ((∃ u ∈ us, ∃ l, c u = some l ∧ ∃ t ∈ l, t < nA ∧ f = tdr P t) ↔
        ∃ t < nA, f = tdr P t ∧ ∃ u ∈ us, ∃ v, ReflTransGen (Edge h) u v ∧ TaskReach P (taskOf h v) t) := by
      intro us hus
      constructor
      · rintro ⟨u, hu, l, hl, t, h1, h2, h3⟩
        obtain ⟨v, h4, h5⟩ := ((hc u l hl).2.2 t).1 h1
        exact ⟨t, h2, h3, u, hu, v, h4, h5.2⟩
      · rintro ⟨t, h2, h3, u, hu, v, h4, h5⟩
        cases hl : c u with
        | none => exact absurd hl (hf u (hus u hu))
        | some l => exact ⟨u, hu, l, hl, t, ((hc u l hl).2.2 t).2 ⟨v, h4, by omega, h5⟩, h2, h3⟩
    rw [m3, m2, m1, hstate, ce, hr _ fun u hu => List.mem_append_left _ hu, hr _ fun u hu => List.mem_append_right _ hu]
    have hlive : ∀ t, (∃ u ∈ live h n, TaskReach P (taskOf h u) t) ↔
        ∃ u ∈ n.firsts, ∃ v, ReflTransGen (Edge h) u v ∧ TaskReach P (taskOf h v) t := fun t => by
      constructor
      · rintro ⟨v, hv, h1⟩
        obtain ⟨u, hu, h2⟩ := (mem_live hh hn.lt).1 hv
        exact ⟨u, hu, v, h2, h1⟩
      · rintro ⟨u, hu, v, h2, h1⟩
        exact ⟨v, (mem_live hh hn.lt).2 ⟨u, hu, h2⟩, h1⟩
    simp only [hlive]
    constructor
    · rintro (⟨t, h1, h2, u, hu, h3⟩ | ⟨t, h1, h2, u, hu, h3⟩ | h1 | h1)
      · exact .inr ⟨t, h1, h2, u, List.mem_append_left _ hu, h3⟩
      · exact .inr ⟨t, h1, h2, u, List.mem_append_right _ hu, h3⟩
      · exact .inl h1
      · simp at h1
    · rintro (h1 | ⟨t, h1, h2, u, hu, h3⟩)
      · exact .inr (.inr (.inl h1))
      · rcases List.mem_append.1 hu with hu | hu
        · exact .inl ⟨t, h1, h2, u, hu, h3⟩
        · exact .inr (.inl ⟨t, h1, h2, u, hu, h3⟩)
  · rw [m5, m4, hg0, List.mem_map]
    constructor
    · rintro (⟨t, ht, rfl⟩ | h1 | h1)
      · obtain ⟨u, hu, rfl⟩ := (hkey t).1 ht
        exact .inr ⟨u, hu, rfl⟩
      · exact .inl h1
      · simp at h1
    · rintro (h1 | ⟨u, hu, rfl⟩)
      · exact .inr (.inl h1)
      · exact .inl ⟨_, (hkey _).2 ⟨u, hu, rfl⟩, rfl⟩

/-! ## Cuts -/

theorem splitLoop_spec {lm : List Nat} (hs : lm.Pairwise (· ≤ ·)) : ∀ (f r l : Nat), l - r ≤ f → r < l → l < lm.length →
    (∀ x, lm[r]? = some x → x < nA) → (∀ x, lm[l]? = some x → nA ≤ x) →
    ∃ k, splitLoop nA lm f r l = some k ∧ k ≤ lm.length ∧ (∀ i < k, ∀ x, lm[i]? = some x → x < nA) ∧
      ∀ i, k ≤ i → ∀ x, lm[i]? = some x → nA ≤ x := by
  intro f
  induction f with
  | zero => intro r l h1 h2; omega
  | succ f ih =>
    intro r l h1 h2 h3 h4 h5
    have hmono : ∀ i j x y : Nat, i ≤ j → lm[i]? = some x → lm[j]? = some y → x ≤ y := by
      intro i j x y hij hx hy
      rcases Nat.eq_or_lt_of_le hij with rfl | hlt
      · rw [hx] at hy; cases hy; exact Nat.le_refl _
      · obtain ⟨hi, rfl⟩ := List.getElem?_eq_some_iff.1 hx
        obtain ⟨hj, rfl⟩ := List.getElem?_eq_some_iff.1 hy
        exact List.pairwise_iff_getElem.1 hs i j hi hj hlt
    unfold splitLoop
    by_cases he : r + 1 = l
    · rw [if_pos he]
      refine ⟨l, rfl, by omega, fun i hi x hx => ?_, fun i hi x hx => ?_⟩
      · have hr : lm[r]? = some lm[r] := List.getElem?_eq_getElem (by omega)
        have := hmono i r x _ (by omega) hx hr
        have := h4 _ hr
        omega
      · have hl : lm[l]? = some lm[l] := List.getElem?_eq_getElem h3
        have := hmono l i _ x hi hl hx
        have := h5 _ hl
        omega
    · rw [if_neg he]
      have hm : (r + l) / 2 < lm.length := by omega
      have hx : lm[(r + l) / 2]? = some lm[(r + l) / 2] := List.getElem?_eq_getElem hm
      rw [hx]
      simp only
      split_ifs with hlt
      · exact ih _ _ (by omega) (by omega) h3 (fun x h => by rw [hx] at h; cases h; exact hlt) h5
      · exact ih _ _ (by omega) (by omega) (by omega) h4 fun x h => by rw [hx] at h; cases h; omega

theorem firstMethod_spec {lm : List Nat} (hs : lm.Pairwise (· ≤ ·)) (hne : lm ≠ []) :
    ∃ k, firstMethod nA lm = some k ∧ k ≤ lm.length ∧ (∀ i < k, ∀ x, lm[i]? = some x → x < nA) ∧
      ∀ i, k ≤ i → ∀ x, lm[i]? = some x → nA ≤ x := by
  have hlen := List.length_pos_iff.2 hne
  have h0 : lm.head? = some lm[0] := by rw [List.head?_eq_getElem?, List.getElem?_eq_getElem hlen]
  have h1 : lm.getLast? = some lm[lm.length - 1] := by
    rw [List.getLast?_eq_getElem?, List.getElem?_eq_getElem (by omega)]
  have hmono : ∀ i j (hi : i < lm.length) (hj : j < lm.length), i ≤ j → lm[i] ≤ lm[j] := by
    intro i j hi hj hij
    rcases Nat.eq_or_lt_of_le hij with rfl | hlt
    · exact Nat.le_refl _
    · exact List.pairwise_iff_getElem.1 hs i j hi hj hlt
  unfold firstMethod
  rw [h0, h1]
  simp only
  by_cases ha : nA ≤ lm[0]
  · rw [if_pos ha]
    refine ⟨0, rfl, by omega, by omega, fun i _ x hx => ?_⟩
    obtain ⟨hi, rfl⟩ := List.getElem?_eq_some_iff.1 hx
    have := hmono 0 i hlen hi (by omega)
    omega
  · rw [if_neg ha]
    by_cases hb : lm[lm.length - 1] < nA
    · rw [if_pos hb]
      refine ⟨lm.length, rfl, Nat.le_refl _, fun i _ x hx => ?_, fun i hi x hx => ?_⟩
      · obtain ⟨hi, rfl⟩ := List.getElem?_eq_some_iff.1 hx
        have := hmono i (lm.length - 1) hi (by omega) (by omega)
        omega
      · obtain ⟨hi', rfl⟩ := List.getElem?_eq_some_iff.1 hx
        omega
    · rw [if_neg hb]
      have hne1 : lm.length ≠ 1 := by
        intro h
        have : lm[lm.length - 1] = lm[0] := by congr 1; omega
        omega
      refine splitLoop_spec hs _ _ _ (by omega) (by omega) (by omega) (fun x hx => ?_) fun x hx => ?_
      · rw [List.getElem?_eq_getElem hlen] at hx; cases hx; omega
      · rw [List.getElem?_eq_getElem (by omega)] at hx; cases hx; omega

/-- The transformed cut: actions first, then the methods with their numbers in the HTN model. -/
theorem splitCut_spec {cut : List Nat} (hne : cut ≠ []) :
    ∃ k l, splitCut nA cut = some (k, l) ∧ l.length = cut.length ∧ k ≤ l.length ∧
      (∀ a, a ∈ l.take k ↔ a ∈ cut ∧ a < nA) ∧ ∀ m, m ∈ l.drop k ↔ nA + m ∈ cut := by
  obtain ⟨b, e, hp, hs⟩ := IntUtil.sort_full (f := cut.length + 1) (a := cut.map Int.ofNat) (by simp) (by simpa using hne)
  have hpos : ∀ x ∈ b, ∃ y : Nat, y ∈ cut ∧ x = y := fun x hx => by
    obtain ⟨y, hy, rfl⟩ := List.mem_map.1 (hp.mem_iff.1 hx)
    exact ⟨y, hy, rfl⟩
  have hmem : ∀ y, y ∈ b.map Int.toNat ↔ y ∈ cut := fun y => by
    rw [List.mem_map]
    constructor
    · rintro ⟨x, hx, rfl⟩
      obtain ⟨z, hz, rfl⟩ := hpos x hx
      exact hz
    · intro hy
      exact ⟨(y : Int), hp.mem_iff.2 (List.mem_map.2 ⟨y, hy, rfl⟩), rfl⟩
  have hs' : (b.map Int.toNat).Pairwise (· ≤ ·) := List.pairwise_map.2 (hs.imp fun h => Int.toNat_le_toNat h)
  have hlen : (b.map Int.toNat).length = cut.length := by rw [List.length_map, hp.length_eq, List.length_map]
  obtain ⟨k, ek, hk, h1, h2⟩ := firstMethod_spec (nA := nA) hs' (by
    intro h0; rw [h0] at hlen; exact hne (List.length_eq_zero_iff.1 hlen.symm))
  rw [List.length_map] at e
  generalize hlm : b.map Int.toNat = lm at *
  refine ⟨k, lm.take k ++ (lm.drop k).map (· - nA), ?_, by simp; omega, by simp; omega, fun a => ?_, fun m => ?_⟩
  · unfold splitCut
    rw [e]
    simp only [Option.bind_eq_bind, Option.bind_some, hlm, ek]
    rfl
  · rw [List.take_append_of_le_length (by simp; omega), List.take_take, Nat.min_self, ← hmem]
    constructor
    · intro h
      obtain ⟨i, hi, rfl⟩ := List.getElem_of_mem h
      have hi' : i < k := by simp at hi; omega
      exact ⟨List.mem_of_mem_take h, h1 i hi' _ (by simp at hi ⊢)⟩
    · rintro ⟨h, hlt⟩
      obtain ⟨i, hi, rfl⟩ := List.getElem_of_mem h
      by_cases hik : i < k
      · exact List.mem_iff_getElem.2 ⟨i, by simp; omega, by simp⟩
      · exact absurd (h2 i (by omega) _ (List.getElem?_eq_getElem hi)) (by omega)
  · rw [List.drop_append_of_le_length (by simp; omega), List.drop_of_length_le (l := lm.take k) (by simp), List.nil_append,
      List.mem_map, ← hmem]
    constructor
    · rintro ⟨x, hx, rfl⟩
      obtain ⟨i, hi, rfl⟩ := List.getElem_of_mem hx
      have hki : k + i < lm.length := by rw [List.length_drop] at hi; omega
      have := h2 (k + i) (by omega) lm[k + i] (List.getElem?_eq_getElem hki)
      rw [List.getElem_drop, show nA + (lm[k + i] - nA) = lm[k + i] by omega]
      exact List.getElem_mem _
    · intro h
      obtain ⟨i, hi, he⟩ := List.getElem_of_mem h
      have hik : k ≤ i := by
        by_contra hc
        have := h1 i (by omega) _ (List.getElem?_eq_getElem hi)
        omega
      refine ⟨nA + m, List.mem_iff_getElem.2 ⟨i - k, by simp; omega, ?_⟩, by omega⟩
      rw [List.getElem_drop, ← he]
      congr 1; omega

/-! ## Inner heuristics -/

/-- `UNREACHABLE` is returned only if the goal is relaxed unreachable; other values are not larger than the sum of all
costs. -/
def InnerSafe (M : Strips) (U : Nat) (inner : List Nat → List Nat → Option (Nat × List (List Nat))) : Prop :=
  ∀ S G r cuts, S.Nodup → G.Nodup → (∀ f ∈ S, f < M.numFacts) → (∀ f ∈ G, f < M.numFacts) →
    inner S G = some (r, cuts) → r ≤ U ∧ (r = U → ∃ f ∈ G, ¬ Strips.Reach M (· ∈ S) f) ∧ (r ≠ U → r ≤ M.total M.cost)

/-- The value is a lower bound of the cost of every relaxed plan. -/
def InnerAdm (M : Strips) (inner : List Nat → List Nat → Option (Nat × List (List Nat))) : Prop :=
  ∀ S G r cuts, S.Nodup → G.Nodup → (∀ f ∈ S, f < M.numFacts) → (∀ f ∈ G, f < M.numFacts) →
    inner S G = some (r, cuts) → ∀ ρ, SolvesRel M S G ρ → r ≤ costOf M.cost ρ

/-- Every stored cut meets every relaxed plan. -/
def InnerCuts (M : Strips) (inner : List Nat → List Nat → Option (Nat × List (List Nat))) : Prop :=
  ∀ S G r cuts, S.Nodup → G.Nodup → (∀ f ∈ S, f < M.numFacts) → (∀ f ∈ G, f < M.numFacts) →
    inner S G = some (r, cuts) → ∀ cut ∈ cuts, cut ≠ [] ∧ ∀ ρ, SolvesRel M S G ρ → ∃ o ∈ cut, o ∈ ρ

/-- The inner heuristic ends normally. -/
def InnerTotal (M : Strips) (inner : List Nat → List Nat → Option (Nat × List (List Nat))) : Prop :=
  ∀ S G, S.Nodup → G.Nodup → (∀ f ∈ S, f < M.numFacts) → (∀ f ∈ G, f < M.numFacts) → inner S G ≠ none

theorem finite_lists (N : Nat) : {l : List Nat | l.Nodup ∧ ∀ x ∈ l, x < N}.Finite := by
  refine ((List.finite_length_le (Fin N) N).image (List.map Fin.val)).subset fun l hl => ?_
  obtain ⟨h1, h2⟩ := hl
  refine ⟨l.attach.map fun x => ⟨x.1, h2 x.1 x.2⟩, ?_, ?_⟩
  · show _ ≤ N
    rw [List.length_map, List.length_attach]
    have := List.toFinset_card_of_nodup h1
    rw [← this]
    refine Nat.le_trans (Finset.card_le_card (t := Finset.range N) fun x hx => ?_) (by simp)
    exact Finset.mem_range.2 (h2 x (List.mem_toFinset.1 hx))
  · rw [List.map_map]
    exact List.attach_map_subtype_val l

/-- One amount of fuel for all states and goals. -/
theorem uniform_fuel {N : Nat} {Q : Nat → List Nat → List Nat → Prop}
    (h : ∀ S G : List Nat, S.Nodup → G.Nodup → (∀ f ∈ S, f < N) → (∀ f ∈ G, f < N) → ∃ F, ∀ fuel, F ≤ fuel → Q fuel S G) :
    ∃ F, ∀ fuel, F ≤ fuel → ∀ S G : List Nat, S.Nodup → G.Nodup → (∀ f ∈ S, f < N) → (∀ f ∈ G, f < N) → Q fuel S G := by
  classical
  let F : List Nat × List Nat → Nat := fun x =>
    if hx : x.1.Nodup ∧ x.2.Nodup ∧ (∀ f ∈ x.1, f < N) ∧ ∀ f ∈ x.2, f < N then
      (h x.1 x.2 hx.1 hx.2.1 hx.2.2.1 hx.2.2.2).choose else 0
  obtain ⟨B, hB⟩ := (((finite_lists N).prod (finite_lists N)).image F).bddAbove
  refine ⟨B, fun fuel hf S G h1 h2 h3 h4 => ?_⟩
  have hle : F (S, G) ≤ B := hB ⟨(S, G), ⟨⟨h1, h3⟩, ⟨h2, h4⟩⟩, rfl⟩
  have he : F (S, G) = (h S G h1 h2 h3 h4).choose := dif_pos ⟨h1, h2, h3, h4⟩
  exact (h S G h1 h2 h3 h4).choose_spec fuel (by omega)

/-- LM-cut as inner heuristic. -/
theorem lmCut_inner (pq : PQ) {M : Strips} {U : Nat} (hM : M.WF) (htot : M.total M.cost < U) :
    ∃ F, ∀ fuel, F ≤ fuel → InnerTotal M (lmCut M pq U fuel) ∧ InnerSafe M U (lmCut M pq U fuel) ∧
      InnerAdm M (lmCut M pq U fuel) ∧ InnerCuts M (lmCut M pq U fuel) := by
  obtain ⟨F, hF⟩ := uniform_fuel (N := M.numFacts) (Q := fun fuel S G => ∃ r cuts, lmCut M pq U fuel S G = some (r, cuts) ∧
      (r ≤ U ∧ (r = U → ∃ f ∈ G, ¬ Strips.Reach M (· ∈ S) f) ∧ (r ≠ U → r ≤ M.total M.cost)) ∧ (∀ ρ, SolvesRel M S G ρ → r ≤ costOf M.cost ρ) ∧
      ∀ cut ∈ cuts, cut ≠ [] ∧ ∀ ρ, SolvesRel M S G ρ → ∃ o ∈ cut, o ∈ ρ) fun S G hS hG _ _ => by
    by_cases hg : G = []
    · subst hg
      exact ⟨0, fun fuel _ => ⟨0, [], rfl, ⟨by omega, by omega, by omega⟩, fun _ _ => Nat.zero_le _, by simp⟩⟩
    · obtain ⟨F, h, cuts, hMax, x, e, k1, k2⟩ := lmCut_spec (pq := pq) hM htot hS hg
      refine ⟨F, fun fuel hf => ⟨h, cuts, (e fuel hf).1, ?_⟩⟩
      by_cases hr : ∀ f ∈ G, Strips.Reach M (· ∈ S) f
      · obtain ⟨⟨c', hI⟩, -⟩ := k2 hr
        obtain ⟨ρ, t, h1, h2⟩ := reach_iff.1 hr
        have hρ : SolvesRel M S G ρ := ⟨t, h1, h2⟩
        have hlt : h ≤ M.total M.cost := by
          obtain ⟨ρ', t', h3, h4, h5, h6⟩ := h1.dedup _ (Nat.le_refl _)
          have a1 := hI.adm ρ' ⟨t', h5, fun f hf => h6 f (h2 f hf)⟩
          have a2 : costOf M.cost ρ' ≤ M.total M.cost := by
            rw [costOf, ← List.sum_toFinset _ h3]
            refine Finset.sum_le_sum_of_subset fun o ho => ?_
            exact Finset.mem_range.2 (h5.ops o (List.mem_toFinset.1 ho))
          omega
        refine ⟨⟨by omega, by omega, fun _ => hlt⟩, fun ρ hρ => ?_, fun cut hc => ⟨?_, (hI.lm cut hc).2.2⟩⟩
        · have := hI.adm ρ hρ; omega
        · obtain ⟨o, ho, -⟩ := (hI.lm cut hc).2.2 ρ hρ
          exact List.ne_nil_of_mem ho
      · have hr' : ∃ f ∈ G, ¬ Strips.Reach M (· ∈ S) f := by
          by_contra hc
          exact hr fun f hf => by by_contra h0; exact hc ⟨f, hf, h0⟩
        obtain ⟨rfl, -, rfl⟩ := k1 hr'
        refine ⟨⟨Nat.le_refl _, fun _ => hr', fun h => absurd rfl h⟩, fun ρ hρ => ?_, by simp⟩
        obtain ⟨t, h1, h2⟩ := hρ
        exact absurd (reach_iff.2 ⟨ρ, t, h1, h2⟩) hr
  refine ⟨F, fun fuel hf => ⟨fun S G h1 h2 h3 h4 => ?_, fun S G r cuts h1 h2 h3 h4 he => ?_,
    fun S G r cuts h1 h2 h3 h4 he => ?_, fun S G r cuts h1 h2 h3 h4 he => ?_⟩⟩
  · obtain ⟨r, cuts, e, -⟩ := hF fuel hf S G h1 h2 h3 h4
    rw [e]; simp
  all_goals
    obtain ⟨r', cuts', e, k1, k2, k3⟩ := hF fuel hf S G h1 h2 h3 h4
    rw [he] at e
    cases e
  · exact k1
  · exact k2
  · exact k3

/-- FF as inner heuristic. -/
theorem ff_inner (pq : PQ) {M : Strips} {U : Nat} (hM : M.WF) (htot : M.total M.cost < U) (cap : Nat)
    (rb0 : Nat → Option Nat) :
    ∃ F, ∀ fuel, F ≤ fuel → InnerSafe M U (ffInner M pq U cap rb0 fuel) ∧
      InnerSafe M U (filterInner M pq U cap rb0 fuel) ∧ InnerAdm M (filterInner M pq U cap rb0 fuel) := by
  obtain ⟨F, hF⟩ := uniform_fuel (N := M.numFacts) (Q := fun fuel S G => ∀ r cuts,
      ffInner M pq U cap rb0 fuel S G = some (r, cuts) →
      (r = U ∧ ∃ f ∈ G, ¬ Strips.Reach M (· ∈ S) f) ∨ r ≤ M.total M.cost) fun S G hS hG _ _ => by
    by_cases hg : G = []
    · subst hg
      refine ⟨0, fun fuel _ r cuts h => .inr ?_⟩
      simp only [ffInner, addFF, List.isEmpty_nil, if_true, Option.some.injEq, Prod.mk.injEq] at h
      omega
    · obtain ⟨F, h⟩ := ff_spec (pq := pq) hM htot hS hg hG cap rb0
      refine ⟨F, fun fuel hf r cuts hr => ?_⟩
      obtain ⟨x, e, h1 | h1 | h1⟩ := h fuel hf
      · simp only [ffInner, e, h1.1, Option.some.injEq, Prod.mk.injEq] at hr
        exact .inl ⟨hr.1.symm, h1.2⟩
      · simp [ffInner, e, h1.1] at hr
      · obtain ⟨π, rfl, h3, t, h4, h5⟩ := h1
        simp only [ffInner, e, Option.some.injEq, Prod.mk.injEq] at hr
        have a2 : costOf M.cost π ≤ M.total M.cost := by
          rw [costOf, ← List.sum_toFinset _ h3]
          refine Finset.sum_le_sum_of_subset fun o ho => ?_
          exact Finset.mem_range.2 (h4.ops o (List.mem_toFinset.1 ho))
        omega
  refine ⟨F, fun fuel hf => ⟨fun S G r cuts h1 h2 h3 h4 he => ?_, fun S G r cuts h1 h2 h3 h4 he => ?_,
    fun S G r cuts h1 h2 h3 h4 he ρ hρ => ?_⟩⟩
  · rcases hF fuel hf S G h1 h2 h3 h4 r cuts he with ⟨rfl, h⟩ | h
    · exact ⟨Nat.le_refl _, fun _ => h, fun h => absurd rfl h⟩
    · exact ⟨by omega, by omega, fun _ => h⟩
  all_goals
    unfold filterInner at he
    cases hq : ffInner M pq U cap rb0 fuel S G with
    | none => rw [hq] at he; cases he
    | some x =>
      obtain ⟨r', cuts'⟩ := x
      rw [hq] at he
      simp only [Option.some.injEq, Prod.mk.injEq] at he
      obtain ⟨he, -⟩ := he
      rcases hF fuel hf S G h1 h2 h3 h4 r' cuts' hq with ⟨rfl, h⟩ | h
      · rw [if_pos rfl] at he
        first
          | exact ⟨by omega, fun _ => h, by omega⟩
          | (obtain ⟨f, h5, h6⟩ := h
             obtain ⟨t, h7, h8⟩ := hρ
             exact absurd (reach_iff.2 ⟨ρ, t, h7, h8⟩ f h5) h6)
      · rw [if_neg (by omega)] at he
        first
          | exact ⟨by omega, by omega, by omega⟩
          | omega

variable {U : Nat}

theorem RcProblem.lt (hP : P.WF) (hR : RcOK P nA nT) {h : Heap} {n : Node} (hn : NodeOK P h n)
    (hlab : ∀ u ∈ live h n, taskOf h u < nT) {S G : List Nat} (hp : RcProblem P nA h n S G) :
    (∀ f ∈ S, f < P.numFacts + nA + nT) ∧ ∀ f ∈ G, f < P.numFacts + nA + nT := by
  constructor
  · intro f hf
    rcases (hp.mem f).1 hf with h1 | ⟨t, h1, rfl, -⟩
    · have := (List.getElem?_eq_some_iff.1 h1).1
      rw [hn.state_len] at this
      omega
    · simp only [tdr]; omega
  · intro f hf
    rcases (hp.gmem f).1 hf with h1 | ⟨u, hu, rfl⟩
    · have := hP.goal_lt f h1; omega
    · have := hlab u hu
      simp only [bur]; omega

/-- The encoding of a node with a solution has a relaxed plan. -/
theorem RcProblem.plan (hP : P.WF) (hR : RcOK P nA nT) {h : Heap} {n : Node}
    (hlab : ∀ u ∈ live h n, taskOf h u < nT) {S G : List Nat} (hp : RcProblem P nA h n S G) {π k}
    (hs : NodeSol P h n π k) :
    (∃ ρ ms, SolvesRel (rcModel P nA nT cM cA) S G ρ ∧ ρ.Nodup ∧ ms.length = k ∧ ρ ⊆ π ++ mOps nA ms) ∧
    (∀ a ∈ π, a < nA) ∧ ∀ a < nA, ((live h n).filter fun u => taskOf h u = a).card ≤ π.count a :=
  relaxed_plan hP hR hlab hs (fun f hf => (hp.mem f).2 (.inl hf))
    (fun u hu t ht hr => (hp.mem _).2 (.inr ⟨t, ht, rfl, u, hu, hr⟩)) fun f hf => (hp.gmem f).1 hf

/-- The models of the estimates. -/
def Est.mCost : Est → Nat
  | .costs => 0
  | .mixed => 1
  | .distance => 1

def Est.aCost : Est → Nat
  | .costs => 0
  | .mixed => 0
  | .distance => 1

theorem Est.model_eq (e : Est) : e.model P nA nT = rcModel P nA nT e.mCost e.aCost := by cases e <;> rfl

/-- What `setHeuristicValue` does: it calls the inner heuristic for the encoding of the node and adds the
corrections. -/
theorem rcValue_spec (hP : P.WF) (hR : RcOK P nA nT) {h : Heap} {n : Node} (hh : HeapOK h) (hn : NodeOK P h n)
    (hcnt : CounterOK h n) (hlab : ∀ u ∈ live h n, taskOf h u < nT) {last : Nat} (hlast : nA ≤ last) {c : Cache}
    (hc : CacheOK h (fun a b => b < last ∧ TaskReach P a b) c) (hf : ∀ u ∈ n.firsts, c u ≠ none) {st : RcSets}
    (hst : SetsOK P nA nT st) (o : RcOpt) :
    ∃ S G, RcProblem P nA h n S G ∧ (o.inner S G = none → rcValue P nA U o c n st = none) ∧
      ∀ r cuts, o.inner S G = some (r, cuts) → r ≤ U →
        (∃ v st', SetsOK P nA nT st' ∧ rcValue P nA U o c n st = some (st', v, cuts) ∧
          v = r + (if o.correct = true ∧ r ≠ U then corrSum (o.est.weight P nA o.mi) n.contained else 0)) ∨
        (rcValue P nA U o c n st = none ∧ o.correct = true ∧ r ≠ U ∧
          U < r + corrSum (o.est.weight P nA o.mi) n.contained) := by
  obtain ⟨b, g, e1, e2, hs, hp⟩ := rcSets_spec hP hR hh hn hcnt hlab hlast hc hf hst
  refine ⟨b.elems, g.ints, hp, fun hi => ?_, fun r cuts hi hr => ?_⟩
  · simp [rcValue, e1, e2, hi]
  · have hval : rcValue P nA U o c n st =
        (if o.correct && r != U then addCorr U (o.est.weight P nA o.mi) n.contained r else some r).bind
          fun v => some (⟨b, g⟩, v, cuts) := by
      simp only [rcValue, e1, e2, hi, Option.bind_eq_bind, Option.bind_some]
      rfl
    rw [hval]
    by_cases hcor : o.correct = true ∧ r ≠ U
    · have : (o.correct && r != U) = true := by simp [hcor.1, hcor.2]
      rw [if_pos this, if_pos hcor, addCorr_spec hr]
      by_cases hle : r + corrSum (o.est.weight P nA o.mi) n.contained ≤ U
      · rw [if_pos hle]
        exact .inl ⟨_, ⟨b, g⟩, hs, rfl, rfl⟩
      · rw [if_neg hle]
        exact .inr ⟨rfl, hcor.1, hcor.2, by omega⟩
    · have : ¬ (o.correct && r != U) = true := by
        rw [Bool.and_eq_true, bne_iff_ne]
        exact hcor
      rw [if_neg this, if_neg hcor]
      exact .inl ⟨r, ⟨b, g⟩, hs, rfl, rfl⟩

/-- What holds when the heuristic is called: the node is a proper network with correct task counts, and correct sets are
stored with its unconstrained steps. -/
structure Ready (P : Problem) (nA nT last : Nat) (h : Heap) (n : Node) (c : Cache) : Prop where
  heap : HeapOK h
  node : NodeOK P h n
  counter : CounterOK h n
  lab : ∀ u ∈ live h n, taskOf h u < nT
  le : nA ≤ last
  cache : CacheOK h (fun a b => b < last ∧ TaskReach P a b) c
  firsts : ∀ u ∈ n.firsts, c u ≠ none

variable {last : Nat} {h : Heap} {n : Node} {c : Cache} {st st' : RcSets} {o : RcOpt} {v : Nat} {cuts : List (List Nat)}

theorem rcValue_some (hP : P.WF) (hR : RcOK P nA nT) (hy : Ready P nA nT last h n c) (hst : SetsOK P nA nT st)
    (hin : InnerSafe (o.est.model P nA nT) U o.inner) (hv : rcValue P nA U o c n st = some (st', v, cuts)) :
    SetsOK P nA nT st' ∧ ∃ S G r, RcProblem P nA h n S G ∧ o.inner S G = some (r, cuts) ∧ r ≤ U ∧
      ((r = U → ∃ f ∈ G, ¬ Strips.Reach (o.est.model P nA nT) (· ∈ S) f) ∧
        (r ≠ U → r ≤ (o.est.model P nA nT).total (o.est.model P nA nT).cost)) ∧
      v = r + (if o.correct = true ∧ r ≠ U then corrSum (o.est.weight P nA o.mi) n.contained else 0) := by
  obtain ⟨S, G, hp, h1, h2⟩ := rcValue_spec (U := U) hP hR hy.heap hy.node hy.counter hy.lab hy.le hy.cache hy.firsts hst o
  cases he : o.inner S G with
  | none => rw [h1 he] at hv; cases hv
  | some x =>
    obtain ⟨r, cuts'⟩ := x
    obtain ⟨l1, l2⟩ := hp.lt hP hR hy.node hy.lab
    have e := o.est.model_eq (P := P) (nA := nA) (nT := nT)
    obtain ⟨a1, a2⟩ := hin S G r cuts' hp.nodup hp.gnodup (by rw [e]; exact l1) (by rw [e]; exact l2) he
    rcases h2 r cuts' he a1 with ⟨v', st'', b1, b2, b3⟩ | ⟨b1, -⟩
    · rw [hv] at b2
      cases b2
      exact ⟨b1, S, G, r, hp, he, a1, a2, b3⟩
    · rw [hv] at b1; cases b1

theorem RcProblem.reach (hP : P.WF) (hR : RcOK P nA nT) (hlab : ∀ u ∈ live h n, taskOf h u < nT) {S G : List Nat}
    (hp : RcProblem P nA h n S G) (e : Est) {π k} (hs : NodeSol P h n π k) :
    ∀ f ∈ G, Strips.Reach (e.model P nA nT) (· ∈ S) f := by
  obtain ⟨⟨ρ, -, ⟨t, h1, h2⟩, -⟩, -⟩ := hp.plan (cM := e.mCost) (cA := e.aCost) hP hR hlab hs
  rw [e.model_eq]
  exact reach_iff.2 ⟨ρ, t, h1, h2⟩

/-- If the value is `UNREACHABLE`, there is no solution, unless it results from the correction. -/
theorem rcValue_safe (hP : P.WF) (hR : RcOK P nA nT) (hy : Ready P nA nT last h n c) (hst : SetsOK P nA nT st)
    (hin : InnerSafe (o.est.model P nA nT) U o.inner) (hv : rcValue P nA U o c n st = some (st', U, cuts))
    (hcor : o.correct = true → (o.est.model P nA nT).total (o.est.model P nA nT).cost +
      corrSum (o.est.weight P nA o.mi) n.contained < U)
    (htot : (o.est.model P nA nT).total (o.est.model P nA nT).cost < U) : ¬ ∃ π k, NodeSol P h n π k := by
  rintro ⟨π, k, hs⟩
  obtain ⟨-, S, G, r, hp, he, h1, ⟨h2, h4⟩, h3⟩ := rcValue_some hP hR hy hst hin hv
  by_cases hr : r = U
  · obtain ⟨f, hf, hno⟩ := h2 hr
    exact hno (hp.reach hP hR hy.lab o.est hs f hf)
  · have := h4 hr
    by_cases hc : o.correct = true
    · rw [if_pos ⟨hc, hr⟩] at h3
      have := hcor hc
      omega
    · rw [if_neg fun hh => hc hh.1] at h3
      omega

/-- The computation ends normally if the inner heuristic does and the correction does not overflow. -/
theorem rcValue_total (hP : P.WF) (hR : RcOK P nA nT) (hy : Ready P nA nT last h n c) (hst : SetsOK P nA nT st)
    (hin : InnerSafe (o.est.model P nA nT) U o.inner) (hto : InnerTotal (o.est.model P nA nT) o.inner)
    (hcor : o.correct = true → (o.est.model P nA nT).total (o.est.model P nA nT).cost +
      corrSum (o.est.weight P nA o.mi) n.contained < U) :
    ∃ st' v cuts, rcValue P nA U o c n st = some (st', v, cuts) ∧ v ≤ U := by
  obtain ⟨S, G, hp, h1, h2⟩ := rcValue_spec (U := U) hP hR hy.heap hy.node hy.counter hy.lab hy.le hy.cache hy.firsts hst o
  obtain ⟨l1, l2⟩ := hp.lt hP hR hy.node hy.lab
  have e := o.est.model_eq (P := P) (nA := nA) (nT := nT)
  cases he : o.inner S G with
  | none => exact absurd he (hto S G hp.nodup hp.gnodup (by rw [e]; exact l1) (by rw [e]; exact l2))
  | some x =>
    obtain ⟨r, cuts'⟩ := x
    obtain ⟨a1, -, a3⟩ := hin S G r cuts' hp.nodup hp.gnodup (by rw [e]; exact l1) (by rw [e]; exact l2) he
    rcases h2 r cuts' he a1 with ⟨v', st'', b1, b2, b3⟩ | ⟨-, c1, c2, b2⟩
    · refine ⟨_, _, _, b2, ?_⟩
      by_cases hc : o.correct = true ∧ r ≠ U
      · rw [if_pos hc] at b3
        have := hcor hc.1
        have := a3 hc.2
        omega
      · rw [if_neg hc] at b3
        omega
    · have := hcor c1
      have := a3 c2
      omega

/-- The estimate of the costs is a lower bound. -/
theorem rcValue_costs (hP : P.WF) (hR : RcOK P nA nT) (hy : Ready P nA nT last h n c) (hst : SetsOK P nA nT st)
    (he : o.est = .costs) (hin : InnerSafe (o.est.model P nA nT) U o.inner)
    (hadm : InnerAdm (o.est.model P nA nT) o.inner) (hv : rcValue P nA U o c n st = some (st', v, cuts)) {π k}
    (hs : NodeSol P h n π k) : v ≤ P.planCost π := by
  obtain ⟨-, S, G, r, hp, e1, h1, h2, h3⟩ := rcValue_some hP hR hy hst hin hv
  obtain ⟨l1, l2⟩ := hp.lt hP hR hy.node hy.lab
  obtain ⟨⟨ρ, ms, k1, k2, k3, k4⟩, k5, k6⟩ := hp.plan (cM := o.est.mCost) (cA := o.est.aCost) hP hR hy.lab hs
  have e := o.est.model_eq (P := P) (nA := nA) (nT := nT)
  have hle := hadm S G r cuts hp.nodup hp.gnodup (by rw [e]; exact l1) (by rw [e]; exact l2) e1 ρ (by rw [e]; exact k1)
  rw [e, he] at hle
  have hb := corr_bound (P := P) (nT := nT) hy.counter.1 (fun a ha => by rw [hy.counter.2]; exact k6 a ha) k5 k2 k4 o.mi
  rw [← he] at hb
  have : costOf (rcModel P nA nT Est.costs.mCost Est.costs.aCost).cost ρ = costOf (rcModel P nA nT 0 0).cost ρ := rfl
  rw [h3]
  split_ifs <;> omega

/-- Without correction, the value is a lower bound of what the estimate counts. -/
theorem rcValue_plain (hP : P.WF) (hR : RcOK P nA nT) (hy : Ready P nA nT last h n c) (hst : SetsOK P nA nT st)
    (hc : o.correct = false ∨ o.est = .mixed) (hin : InnerSafe (o.est.model P nA nT) U o.inner)
    (hadm : InnerAdm (o.est.model P nA nT) o.inner) (hv : rcValue P nA U o c n st = some (st', v, cuts)) {π k}
    (hs : NodeSol P h n π k) :
    v ≤ (if o.est.aCost = 0 then P.planCost π else o.est.aCost * π.length) + k * o.est.mCost := by
  obtain ⟨-, S, G, r, hp, e1, h1, h2, h3⟩ := rcValue_some hP hR hy hst hin hv
  obtain ⟨l1, l2⟩ := hp.lt hP hR hy.node hy.lab
  obtain ⟨⟨ρ, ms, k1, k2, k3, k4⟩, k5, k6⟩ := hp.plan (cM := o.est.mCost) (cA := o.est.aCost) hP hR hy.lab hs
  have e := o.est.model_eq (P := P) (nA := nA) (nT := nT)
  have hle := hadm S G r cuts hp.nodup hp.gnodup (by rw [e]; exact l1) (by rw [e]; exact l2) e1 ρ (by rw [e]; exact k1)
  rw [e] at hle
  have hb := plain_bound (P := P) (nT := nT) (cM := o.est.mCost) (cA := o.est.aCost) k5 k2 k4
  rw [k3] at hb
  have hv' : v = r := by
    rw [h3]
    rcases hc with hc | hc
    · rw [if_neg fun hh => by rw [hc] at hh; exact absurd hh.1 (by simp)]; rfl
    · have h0 : corrSum (o.est.weight P nA o.mi) n.contained = 0 := by
        rw [hc]
        simp [corrSum, Est.weight]
      rw [h0]
      split_ifs <;> rfl
  omega

/-- The transformed cuts. -/
theorem rcCuts_spec (hP : P.WF) (hR : RcOK P nA nT) (hy : Ready P nA nT last h n c) (hst : SetsOK P nA nT st)
    (hin : InnerSafe (o.est.model P nA nT) U o.inner) (hcuts : InnerCuts (o.est.model P nA nT) o.inner)
    (hv : rcValue P nA U o c n st = some (st', v, cuts)) {cut : List Nat} (hcut : cut ∈ cuts) :
    ∃ k l, splitCut nA cut = some (k, l) ∧ k ≤ l.length ∧ l.length = cut.length ∧
      ∀ tr occ π s', LinNet P (live h n) (taskOf h) (TransGen (Edge h)) tr occ π → Exec P (holds n.state) π s' →
        P.GoalState s' → (∃ a ∈ l.take k, a ∈ π) ∨ ∃ m ∈ l.drop k, ∃ u ∈ live h n, Uses P (tr u) m := by
  obtain ⟨-, S, G, r, hp, e1, h1, h2, h3⟩ := rcValue_some hP hR hy hst hin hv
  obtain ⟨l1, l2⟩ := hp.lt hP hR hy.node hy.lab
  have e := o.est.model_eq (P := P) (nA := nA) (nT := nT)
  obtain ⟨hne, hlm⟩ := hcuts S G r cuts hp.nodup hp.gnodup (by rw [e]; exact l1) (by rw [e]; exact l2) e1 cut hcut
  obtain ⟨k, l, e2, k1, k2, k3, k4⟩ := splitCut_spec (nA := nA) hne
  refine ⟨k, l, e2, k2, k1, fun tr occ π s' hl hex hgoal => ?_⟩
  obtain ⟨⟨ρ, ms, j1, -, -, j4, j5⟩, j6, -⟩ := relaxed_plan_tr (cM := o.est.mCost) (cA := o.est.aCost) hP hR hy.lab hl hex
    hgoal (fun f hf => (hp.mem f).2 (.inl hf)) (fun u hu t ht hr => (hp.mem _).2 (.inr ⟨t, ht, rfl, u, hu, hr⟩))
    fun f hf => (hp.gmem f).1 hf
  obtain ⟨x, hx, hxρ⟩ := hlm ρ (by rw [e]; exact j1)
  rcases List.mem_append.1 (j4 hxρ) with hm | hm
  · exact .inl ⟨x, (k3 x).2 ⟨hx, j6 x hm⟩, hm⟩
  · obtain ⟨m, hm', rfl⟩ := List.mem_map.1 hm
    exact .inr ⟨m, (k4 m).2 hx, j5 m hm'⟩

end Verif.Rc
