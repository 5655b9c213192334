import Verif.HtnSpec
import Mathlib.Algebra.Order.BigOperators.Group.Finset
import Mathlib.Algebra.BigOperators.Group.List.Basic
import Mathlib.Algebra.Order.BigOperators.Group.List
import Mathlib.Tactic.SplitIfs
import Mathlib.Tactic.Linarith
import Mathlib.Data.Prod.Lex

/-!
# Minimal implied costs and distances

Model of `Model::calcMinimalImpliedX` (src/Model.cpp 2680-2780).  Values are natural
numbers (action costs are assumed to be non-negative); a sum above `B` (`INT_MAX`)
is an integer overflow and a distinct outcome (`none`).
-/

namespace Verif.MinImplied

open Verif.Htn

/-- An entry of the work list, `tOrMnode` (src/Model.cpp 2675-2678). -/
inductive Item
  | meth (m : Nat)
  | task (t : Nat)
deriving DecidableEq

/-- The four arrays: estimated costs and distances of tasks and of methods
(src/Model.cpp 2688-2691). -/
structure Vals where
  tc : Nat → Nat
  td : Nat → Nat
  mc : Nat → Nat
  md : Nat → Nat

/-- Initial values (src/Model.cpp 2693-2706); `na` is `numActions`. -/
def start (P : Problem) (na : Nat) : Vals where
  tc t := if t < na then P.cost t else 0
  td t := if t < na then 1 else 0
  mc _ := 0
  md _ := 0

/-- `taskToMethods`: the methods of a task (src/Model.cpp 1452-1540). -/
def methodsOf (P : Problem) (t : Nat) : List Nat :=
  (List.range P.numMethods).filter fun m => P.head m == t

/-- `stToMethod`: the methods in which a task occurs (src/Model.cpp 1950-1980). -/
def methodsWith (P : Problem) (t : Nat) : List Nat :=
  (List.range P.numMethods).filter fun m => (P.sub m).contains t

/-- The initial work list (src/Model.cpp 2708-2717). -/
def startQueue (P : Problem) (na : Nat) : List Item :=
  (List.range na).flatMap fun t : Nat => (methodsWith P t).map Item.meth

/-- Adding up the values of the subtasks (src/Model.cpp 2726-2732); `none` is an overflow. -/
def addUp (B : Nat) (v : Nat → Nat) : List Nat → Nat → Option Nat
  | [], acc => some acc
  | t :: ts, acc => if acc + v t ≤ B then addUp B v ts (acc + v t) else none

/-- Minimum over the methods of a task, starting with `INT_MAX` (src/Model.cpp 2745-2751). -/
def minOver (B : Nat) (v : Nat → Nat) (ms : List Nat) : Nat :=
  ms.foldl (fun r m => min (v m) r) B

/-- One iteration of the loop for the entry taken from the front: new values and the
entries appended (src/Model.cpp 2722-2765). -/
def work (B : Nat) (P : Problem) (s : Vals) : Item → Option (Vals × List Item)
  | .meth m => do
    let c ← addUp B s.tc (P.sub m) 0
    let d ← addUp B s.td (P.sub m) 1
    some ({ s with mc := Function.update s.mc m c, md := Function.update s.md m d },
      if c ≠ s.mc m ∨ d ≠ s.md m then [.task (P.head m)] else [])
  | .task t =>
    let c := minOver B s.mc (methodsOf P t)
    let d := minOver B s.md (methodsOf P t)
    some ({ s with tc := Function.update s.tc t c, td := Function.update s.td t d },
      if c ≠ s.tc t ∨ d ≠ s.td t then (methodsWith P t).map .meth else [])

/-- At most `k` iterations of the loop (src/Model.cpp 2719-2766); `none`: overflow. -/
def iter (B : Nat) (P : Problem) : Nat → Vals × List Item → Option (Vals × List Item)
  | 0, c => some c
  | _ + 1, (s, []) => some (s, [])
  | k + 1, (s, i :: q) =>
    match work B P s i with
    | none => none
    | some (s', new) => iter B P k (s', q ++ new)

/-! ## Facts about the helper loops -/

theorem mem_methodsOf {P : Problem} {t m : Nat} :
    m ∈ methodsOf P t ↔ m < P.numMethods ∧ P.head m = t := by
  simp [methodsOf]

theorem mem_methodsWith {P : Problem} {t m : Nat} :
    m ∈ methodsWith P t ↔ m < P.numMethods ∧ t ∈ P.sub m := by
  simp [methodsWith]

theorem mem_startQueue {P : Problem} {na : Nat} {i : Item} :
    i ∈ startQueue P na ↔ ∃ m, i = .meth m ∧ m < P.numMethods ∧ ∃ t ∈ P.sub m, t < na := by
  simp only [startQueue, List.mem_flatMap, List.mem_range, List.mem_map, mem_methodsWith]
  constructor
  · rintro ⟨t, ht, m, ⟨hm, hs⟩, rfl⟩; exact ⟨m, rfl, hm, t, hs, ht⟩
  · rintro ⟨m, rfl, hm, t, hs, ht⟩; exact ⟨t, ht, m, ⟨hm, hs⟩, rfl⟩

theorem addUp_eq (B : Nat) (v : Nat → Nat) : ∀ (ts : List Nat) (acc : Nat),
    addUp B v ts acc = if acc ≤ B ∨ ts = [] then
      (if acc + (ts.map v).sum ≤ B ∨ ts = [] then some (acc + (ts.map v).sum) else none) else none := by
  intro ts
  induction ts with
  | nil => intro acc; simp [addUp]
  | cons t ts ih =>
    intro acc
    rw [addUp, ih]
    simp only [List.map_cons, List.sum_cons, reduceCtorEq, or_false]
    rcases ts with _ | ⟨t', ts⟩
    · simp
      omega
    · simp only [reduceCtorEq, or_false]
      split_ifs <;> first | rfl | omega | (congr 1; omega)

theorem addUp_some {B : Nat} {v : Nat → Nat} {ts : List Nat} {acc r : Nat}
    (h : addUp B v ts acc = some r) : r = acc + (ts.map v).sum := by
  rw [addUp_eq] at h
  split_ifs at h <;> simpa using h.symm

theorem addUp_le {B : Nat} {v : Nat → Nat} {ts : List Nat} {acc : Nat}
    (h : acc + (ts.map v).sum ≤ B) : addUp B v ts acc = some (acc + (ts.map v).sum) := by
  rw [addUp_eq, if_pos (Or.inl (by omega)), if_pos (Or.inl h)]

theorem minOver_le_of_mem {v : Nat → Nat} : ∀ (ms : List Nat) (B : Nat) {m : Nat}, m ∈ ms →
    minOver B v ms ≤ v m := by
  have hle : ∀ (ms : List Nat) (B : Nat), minOver B v ms ≤ B := by
    intro ms
    induction ms with
    | nil => intro B; exact Nat.le_refl _
    | cons a ms ih => intro B; exact (ih (min (v a) B)).trans (min_le_right _ _)
  intro ms
  induction ms with
  | nil => intro B m h; simp at h
  | cons a ms ih =>
    intro B m h
    rcases List.mem_cons.1 h with rfl | h
    · exact (hle ms _).trans (min_le_left _ _)
    · exact ih _ h

theorem le_minOver {v : Nat → Nat} : ∀ (ms : List Nat) {B x : Nat}, x ≤ B →
    (∀ m ∈ ms, x ≤ v m) → x ≤ minOver B v ms := by
  intro ms
  induction ms with
  | nil => intro B x hB _; exact hB
  | cons a ms ih =>
    intro B x hB h
    exact ih (le_min (h a (by simp)) hB) (fun m hm => h m (by simp [hm]))

theorem minOver_mem {v : Nat → Nat} : ∀ (ms : List Nat) (B : Nat), ms ≠ [] → (∀ m ∈ ms, v m ≤ B) →
    ∃ m ∈ ms, minOver B v ms = v m := by
  intro ms
  induction ms with
  | nil => intro B h; exact absurd rfl h
  | cons a ms ih =>
    intro B _ hB
    have ha : min (v a) B = v a := min_eq_left (hB a (by simp))
    have hu : minOver B v (a :: ms) = minOver (v a) v ms := by
      show minOver (min (v a) B) v ms = _; rw [ha]
    rw [hu]
    by_cases hall : ∀ m ∈ ms, v m ≤ v a
    · rcases ms with _ | ⟨b, ms⟩
      · exact ⟨a, by simp, rfl⟩
      · obtain ⟨m, hm, e⟩ := ih (v a) (by simp) hall
        exact ⟨m, by simp [hm], e⟩
    · -- the minimum is either the first value or one of the others
      have key : ∀ (l : List Nat) (x : Nat), minOver x v l = x ∨ ∃ m ∈ l, minOver x v l = v m := by
        intro l
        induction l with
        | nil => intro x; exact Or.inl rfl
        | cons b l ihl =>
          intro x
          rcases ihl (min (v b) x) with e | ⟨m, hm, e⟩
          · rcases min_choice (v b) x with hb | hb
            · exact Or.inr ⟨b, by simp, by rw [← hb]; exact e⟩
            · left; rw [← hb]; rw [hb] at e ⊢; exact (show minOver x v (b :: l) = _ from by
                show minOver (min (v b) x) v l = x; rw [hb]; exact e)
          · exact Or.inr ⟨m, by simp [hm], e⟩
      rcases key ms (v a) with e | ⟨m, hm, e⟩
      · exact ⟨a, by simp, e⟩
      · exact ⟨m, by simp [hm], e⟩

/-! ## Trees -/

/-- Total cost of the actions of a decomposition tree. -/
def Tree.costs (P : Problem) : Tree → Nat
  | .leaf a => P.cost a
  | .node m cs => ∑ i ∈ Finset.range (P.sub m).length, Tree.costs P (cs i)

/-- Number of actions and decompositions of a decomposition tree. -/
def Tree.size (P : Problem) : Tree → Nat
  | .leaf _ => 1
  | .node m cs => 1 + ∑ i ∈ Finset.range (P.sub m).length, Tree.size P (cs i)

theorem sum_map_eq (v : Nat → Nat) : ∀ l : List Nat,
    (l.map v).sum = ∑ i ∈ Finset.range l.length, v (l.getD i 0) := by
  intro l
  induction l with
  | nil => simp
  | cons a l ih => simp [Finset.sum_range_succ', ih, Nat.add_comm]

theorem sum_map_le {v : Nat → Nat} {l : List Nat} {w : Nat → Nat}
    (h : ∀ i t, l[i]? = some t → v t ≤ w i) :
    (l.map v).sum ≤ ∑ i ∈ Finset.range l.length, w i := by
  rw [sum_map_eq]
  refine Finset.sum_le_sum fun i hi => h i _ ?_
  have hi : i < l.length := Finset.mem_range.1 hi
  simp [List.getD, List.getElem?_eq_getElem hi]

/-- The values are lower bounds, for tasks and for methods. -/
structure Lower (P : Problem) (s : Vals) : Prop where
  tree : ∀ tr t, Valid P t tr → s.tc t ≤ Tree.costs P tr ∧ s.td t ≤ Tree.size P tr
  meth : ∀ m cs, Valid P (P.head m) (.node m cs) →
    s.mc m ≤ Tree.costs P (.node m cs) ∧ s.md m ≤ Tree.size P (.node m cs)

theorem valid_node {P : Problem} {t m : Nat} {cs : Nat → Tree} (h : Valid P t (.node m cs)) :
    t = P.head m ∧ m < P.numMethods ∧ ∀ i t, (P.sub m)[i]? = some t → Valid P t (cs i) := by
  cases h with
  | node hm hs => exact ⟨rfl, hm, hs⟩

theorem start_lower {P : Problem} {na : Nat} (hp : ∀ t, P.prim t = decide (t < na))
    (habs : ∀ m < P.numMethods, P.prim (P.head m) = false) :
    Lower P (start P na) := by
  constructor
  · intro tr t h
    cases h with
    | leaf ha =>
      rw [hp] at ha
      have ha : t < na := by simpa using ha
      simp [start, Tree.costs, Tree.size, ha]
    | node hm hs =>
      have := habs _ hm
      rw [hp] at this
      simp [start, (by simpa using this : ¬ P.head _ < na)]
  · intro m cs _
    simp [start]

theorem work_lower {B : Nat} {P : Problem} (habs : ∀ m < P.numMethods, P.prim (P.head m) = false)
    {s s' : Vals} {i : Item} {new : List Item}
    (hi : ∀ t, i = .task t → P.prim t = false)
    (h : Lower P s) (hw : work B P s i = some (s', new)) : Lower P s' := by
  cases i with
  | meth m =>
    simp only [work, Option.bind_eq_bind, Option.bind_eq_some_iff] at hw
    obtain ⟨c, hc, d, hd, e⟩ := hw
    simp only [Option.some.injEq, Prod.mk.injEq] at e
    obtain ⟨rfl, -⟩ := e
    have hc := addUp_some hc
    have hd := addUp_some hd
    refine ⟨h.tree, fun m' cs hv => ?_⟩
    by_cases e : m' = m
    · subst e
      obtain ⟨-, hm, hs⟩ := valid_node hv
      simp only [Function.update_self, Tree.costs, Tree.size]
      constructor
      · rw [hc, Nat.zero_add]
        exact sum_map_le fun i t hit => (h.tree _ _ (hs i t hit)).1
      · rw [hd]
        exact Nat.add_le_add_left (sum_map_le fun i t hit => (h.tree _ _ (hs i t hit)).2) 1
    · simpa [Function.update_of_ne e] using h.meth m' cs hv
  | task t =>
    simp only [work, Option.some.injEq, Prod.mk.injEq] at hw
    obtain ⟨rfl, -⟩ := hw
    refine ⟨fun tr t' hv => ?_, h.meth⟩
    by_cases e : t' = t
    · subst e
      simp only [Function.update_self]
      cases tr with
      | leaf a =>
        cases hv with
        | leaf ha => rw [hi _ rfl] at ha; simp at ha
      | node m cs =>
        obtain ⟨e, hm, -⟩ := valid_node hv
        subst e
        have hmem : m ∈ methodsOf P (P.head m) := mem_methodsOf.2 ⟨hm, rfl⟩
        exact ⟨(minOver_le_of_mem _ _ hmem).trans (h.meth m cs hv).1,
          (minOver_le_of_mem _ _ hmem).trans (h.meth m cs hv).2⟩
    · simpa [Function.update_of_ne e] using h.tree tr t' hv

/-- Entries of the work list refer to existing methods and tasks with methods. -/
def ItemOk (P : Problem) : Item → Prop
  | .meth m => m < P.numMethods
  | .task t => ∃ m < P.numMethods, P.head m = t

theorem work_items {B : Nat} {P : Problem} {s s' : Vals} {i : Item} {new : List Item}
    (hi : ItemOk P i) (hw : work B P s i = some (s', new)) : ∀ j ∈ new, ItemOk P j := by
  cases i with
  | meth m =>
    simp only [work, Option.bind_eq_bind, Option.bind_eq_some_iff] at hw
    obtain ⟨c, hc, d, hd, e⟩ := hw
    simp only [Option.some.injEq, Prod.mk.injEq] at e
    obtain ⟨-, rfl⟩ := e
    intro j hj
    split_ifs at hj
    · rw [List.mem_singleton] at hj; subst hj; exact ⟨m, hi, rfl⟩
    · simp at hj
  | task t =>
    simp only [work, Option.some.injEq, Prod.mk.injEq] at hw
    obtain ⟨-, rfl⟩ := hw
    intro j hj
    split_ifs at hj
    · simp only [List.mem_map, mem_methodsWith] at hj
      obtain ⟨m, ⟨hm, -⟩, rfl⟩ := hj
      exact hm
    · simp at hj

/-- An invariant of single iterations is an invariant of the loop. -/
theorem iter_invariant {B : Nat} {P : Problem} (Q : Vals → List Item → Prop)
    (hstep : ∀ s i q s' new, Q s (i :: q) → work B P s i = some (s', new) → Q s' (q ++ new)) :
    ∀ (k : Nat) (s : Vals) (q : List Item), Q s q → ∀ s' q', iter B P k (s, q) = some (s', q') → Q s' q' := by
  intro k
  induction k with
  | zero => intro s q h s' q' e; simp only [iter, Option.some.injEq, Prod.mk.injEq] at e; rw [← e.1, ← e.2]; exact h
  | succ k ih =>
    intro s q h s' q' e
    cases q with
    | nil => simp only [iter, Option.some.injEq, Prod.mk.injEq] at e; rw [← e.1, ← e.2]; exact h
    | cons i q =>
      rw [iter] at e
      cases hw : work B P s i with
      | none => rw [hw] at e; simp at e
      | some r =>
        obtain ⟨s1, new⟩ := r
        rw [hw] at e
        exact ih s1 (q ++ new) (hstep s i q s1 new h hw) s' q' e

theorem iter_lower {B : Nat} {P : Problem} {na : Nat} (hp : ∀ t, P.prim t = decide (t < na))
    (habs : ∀ m < P.numMethods, P.prim (P.head m) = false) {k : Nat} {s : Vals} {q : List Item}
    (h : iter B P k (start P na, startQueue P na) = some (s, q)) : Lower P s := by
  refine (iter_invariant (B := B) (P := P) (fun s q => Lower P s ∧ ∀ i ∈ q, ItemOk P i) ?_ k _ _ ?_ _ _ h).1
  · intro s i q s' new ⟨hl, hq⟩ hw
    refine ⟨work_lower habs ?_ hl hw, ?_⟩
    · intro t e
      subst e
      obtain ⟨m, hm, rfl⟩ := hq (.task t) (by simp)
      exact habs m hm
    · intro j hj
      rcases List.mem_append.1 hj with hj | hj
      · exact hq j (by simp [hj])
      · exact work_items (hq i (by simp)) hw j hj
  · refine ⟨start_lower hp habs, fun i hi => ?_⟩
    obtain ⟨m, rfl, hm, -⟩ := mem_startQueue.1 hi
    exact hm

/-! ## Monotonicity and termination -/

/-- Values only grow: every stored value is at most what recomputing it would give. -/
structure Below (P : Problem) (s : Vals) : Prop where
  mc : ∀ m < P.numMethods, s.mc m ≤ ((P.sub m).map s.tc).sum
  md : ∀ m < P.numMethods, s.md m ≤ 1 + ((P.sub m).map s.td).sum
  tc : ∀ m < P.numMethods, s.tc (P.head m) ≤ s.mc m
  td : ∀ m < P.numMethods, s.td (P.head m) ≤ s.md m

theorem sum_map_mono {v w : Nat → Nat} (h : ∀ t, v t ≤ w t) (l : List Nat) :
    (l.map v).sum ≤ (l.map w).sum :=
  List.sum_le_sum fun t _ => h t

theorem le_update {v : Nat → Nat} {a x : Nat} (h : v a ≤ x) (t : Nat) : v t ≤ Function.update v a x t := by
  by_cases e : t = a
  · subst e; simpa using h
  · rw [Function.update_of_ne e]

/-- Every method can be completed, by a tree whose cost and size do not exceed `B`. -/
def Productive (B : Nat) (P : Problem) : Prop :=
  ∀ m < P.numMethods, ∃ cs, Valid P (P.head m) (.node m cs) ∧
    Tree.costs P (.node m cs) ≤ B ∧ Tree.size P (.node m cs) ≤ B

/-- What one iteration does, if the values are lower bounds and every method can be completed. -/
theorem work_spec {B : Nat} {P : Problem} (hB : Productive B P) {s : Vals} (hl : Lower P s)
    (hb : Below P s) {i : Item} (hi : ItemOk P i) :
    ∃ s' new, work B P s i = some (s', new) ∧ Below P s' ∧
      (∀ t, s.tc t ≤ s'.tc t) ∧ (∀ t, s.td t ≤ s'.td t) ∧
      (∀ m, s.mc m ≤ s'.mc m) ∧ (∀ m, s.md m ≤ s'.md m) ∧
      (new = [] ∨ (∃ m < P.numMethods, s.mc m + s.md m < s'.mc m + s'.md m) ∨
        ∃ m < P.numMethods, s.tc (P.head m) + s.td (P.head m) < s'.tc (P.head m) + s'.td (P.head m)) := by
  cases i with
  | meth m =>
    have hm : m < P.numMethods := hi
    obtain ⟨cs, hv, h1, h2⟩ := hB m hm
    obtain ⟨-, -, hs⟩ := valid_node hv
    have k1 : ((P.sub m).map s.tc).sum ≤ B :=
      (sum_map_le fun i t hit => (hl.tree _ _ (hs i t hit)).1).trans h1
    have k2 : 1 + ((P.sub m).map s.td).sum ≤ B :=
      (Nat.add_le_add_left (sum_map_le fun i t hit => (hl.tree _ _ (hs i t hit)).2) 1).trans h2
    have e1 := addUp_le (B := B) (v := s.tc) (ts := P.sub m) (acc := 0) (by omega)
    have e2 := addUp_le (B := B) (v := s.td) (ts := P.sub m) (acc := 1) k2
    rw [Nat.zero_add] at e1
    have g1 : ∀ x, s.mc x ≤ Function.update s.mc m ((P.sub m).map s.tc).sum x := le_update (hb.mc m hm)
    have g2 : ∀ x, s.md x ≤ Function.update s.md m (1 + ((P.sub m).map s.td).sum) x := le_update (hb.md m hm)
    have hw : work B P s (.meth m) = some ({ s with
          mc := Function.update s.mc m ((P.sub m).map s.tc).sum,
          md := Function.update s.md m (1 + ((P.sub m).map s.td).sum) },
        if ((P.sub m).map s.tc).sum ≠ s.mc m ∨ 1 + ((P.sub m).map s.td).sum ≠ s.md m then
          [.task (P.head m)] else []) := by
      rw [work, e1, e2]; rfl
    refine ⟨_, _, hw, ⟨?_, ?_, ?_, ?_⟩, fun _ => Nat.le_refl _, fun _ => Nat.le_refl _,
      g1, g2, ?_⟩
    · intro x hx
      by_cases e : x = m
      · subst e; simp
      · simpa [Function.update_of_ne e] using hb.mc x hx
    · intro x hx
      by_cases e : x = m
      · subst e; simp
      · simpa [Function.update_of_ne e] using hb.md x hx
    · intro x hx; exact (hb.tc x hx).trans (g1 x)
    · intro x hx; exact (hb.td x hx).trans (g2 x)
    · have a1 := hb.mc m hm
      have a2 := hb.md m hm
      split_ifs with hc
      · right; left
        refine ⟨m, hm, ?_⟩
        simp only [Function.update_self]
        omega
      · left; rfl
  | task t =>
    obtain ⟨m0, hm0, rfl⟩ := hi
    have bound : ∀ m ∈ methodsOf P (P.head m0), s.mc m ≤ B ∧ s.md m ≤ B := by
      intro m hm
      obtain ⟨hm, -⟩ := mem_methodsOf.1 hm
      obtain ⟨cs, hv, h1, h2⟩ := hB m hm
      exact ⟨(hl.meth m cs hv).1.trans h1, (hl.meth m cs hv).2.trans h2⟩
    have hmem0 : m0 ∈ methodsOf P (P.head m0) := mem_methodsOf.2 ⟨hm0, rfl⟩
    have a1 : s.tc (P.head m0) ≤ minOver B s.mc (methodsOf P (P.head m0)) := by
      refine le_minOver _ ((hb.tc m0 hm0).trans (bound m0 hmem0).1) fun m hm => ?_
      obtain ⟨hm, e⟩ := mem_methodsOf.1 hm
      rw [← e]; exact hb.tc m hm
    have a2 : s.td (P.head m0) ≤ minOver B s.md (methodsOf P (P.head m0)) := by
      refine le_minOver _ ((hb.td m0 hm0).trans (bound m0 hmem0).2) fun m hm => ?_
      obtain ⟨hm, e⟩ := mem_methodsOf.1 hm
      rw [← e]; exact hb.td m hm
    have g1 := le_update a1
    have g2 := le_update a2
    refine ⟨_, _, rfl, ⟨?_, ?_, ?_, ?_⟩, g1, g2, fun _ => Nat.le_refl _, fun _ => Nat.le_refl _, ?_⟩
    · intro x hx; exact (hb.mc x hx).trans (sum_map_mono g1 _)
    · intro x hx; exact (hb.md x hx).trans (Nat.add_le_add_left (sum_map_mono g2 _) 1)
    · intro x hx
      by_cases e : P.head x = P.head m0
      · simp only [e, Function.update_self]
        exact minOver_le_of_mem _ _ (mem_methodsOf.2 ⟨hx, e⟩)
      · simpa [Function.update_of_ne e] using hb.tc x hx
    · intro x hx
      by_cases e : P.head x = P.head m0
      · simp only [e, Function.update_self]
        exact minOver_le_of_mem _ _ (mem_methodsOf.2 ⟨hx, e⟩)
      · simpa [Function.update_of_ne e] using hb.td x hx
    · split_ifs with hc
      · right; right
        refine ⟨m0, hm0, ?_⟩
        simp only [Function.update_self]
        omega
      · left; rfl

/-- How much the values can still grow. -/
def slack (B : Nat) (P : Problem) (s : Vals) : Nat :=
  ∑ m ∈ Finset.range P.numMethods,
    ((2 * B - (s.mc m + s.md m)) + (2 * B - (s.tc (P.head m) + s.td (P.head m))))

theorem slack_lt {B : Nat} {P : Problem} {s s' : Vals}
    (hle : ∀ m < P.numMethods, s'.mc m + s'.md m ≤ 2 * B ∧ s'.tc (P.head m) + s'.td (P.head m) ≤ 2 * B)
    (h1 : ∀ t, s.tc t ≤ s'.tc t) (h2 : ∀ t, s.td t ≤ s'.td t)
    (h3 : ∀ m, s.mc m ≤ s'.mc m) (h4 : ∀ m, s.md m ≤ s'.md m)
    (h : (∃ m < P.numMethods, s.mc m + s.md m < s'.mc m + s'.md m) ∨
        ∃ m < P.numMethods, s.tc (P.head m) + s.td (P.head m) < s'.tc (P.head m) + s'.td (P.head m)) :
    slack B P s' < slack B P s := by
  obtain ⟨m, hm, hlt⟩ : ∃ m < P.numMethods, s.mc m + s.md m + (s.tc (P.head m) + s.td (P.head m)) <
      s'.mc m + s'.md m + (s'.tc (P.head m) + s'.td (P.head m)) := by
    rcases h with ⟨m, hm, h⟩ | ⟨m, hm, h⟩
    · exact ⟨m, hm, by have := h1 (P.head m); have := h2 (P.head m); omega⟩
    · exact ⟨m, hm, by have := h3 m; have := h4 m; omega⟩
  refine Finset.sum_lt_sum (fun x hx => ?_) ⟨m, Finset.mem_range.2 hm, ?_⟩
  · have := h1 (P.head x); have := h2 (P.head x); have := h3 x; have := h4 x; omega
  · have := h1 (P.head m); have := h2 (P.head m); have := h3 m; have := h4 m
    have := hle m hm
    omega

theorem iter_terminates {B : Nat} {P : Problem} (habs : ∀ m < P.numMethods, P.prim (P.head m) = false)
    (hB : Productive B P) : ∀ (w : Nat) (l : Nat) (s : Vals) (q : List Item),
    slack B P s ≤ w → q.length ≤ l → Lower P s → Below P s → (∀ i ∈ q, ItemOk P i) →
    ∃ k s', iter B P k (s, q) = some (s', []) := by
  intro w
  induction w using Nat.strong_induction_on with
  | _ w ihw =>
  intro l
  induction l with
  | zero =>
    intro s q _ hq _ _ _
    rw [List.length_eq_zero_iff.1 (Nat.le_zero.1 hq)]
    exact ⟨0, s, rfl⟩
  | succ l ihl =>
    intro s q hs hq hl hb hi
    cases q with
    | nil => exact ⟨0, s, rfl⟩
    | cons i q =>
      obtain ⟨s', new, hw, hb', g1, g2, g3, g4, hnew⟩ := work_spec hB hl hb (hi i (by simp))
      have hl' : Lower P s' := by
        refine work_lower habs ?_ hl hw
        intro t e
        subst e
        obtain ⟨m, hm, rfl⟩ := hi (.task t) (by simp)
        exact habs m hm
      have hi' : ∀ j ∈ q ++ new, ItemOk P j := by
        intro j hj
        rcases List.mem_append.1 hj with hj | hj
        · exact hi j (by simp [hj])
        · exact work_items (hi i (by simp)) hw j hj
      have fin : ∃ k s'', iter B P k (s', q ++ new) = some (s'', []) := by
        have hle : ∀ m < P.numMethods, s'.mc m + s'.md m ≤ 2 * B ∧
            s'.tc (P.head m) + s'.td (P.head m) ≤ 2 * B := by
          intro m hm
          obtain ⟨cs, hv, h1, h2⟩ := hB m hm
          have := hl'.meth m cs hv
          have := hl'.tree _ _ hv
          omega
        have hslack : slack B P s' ≤ slack B P s := by
          refine Finset.sum_le_sum fun x _ => ?_
          have := g1 (P.head x); have := g2 (P.head x); have := g3 x; have := g4 x; omega
        rcases hnew with rfl | hnew
        · exact ihl s' _ (hslack.trans hs) (by simp at hq ⊢; omega) hl' hb' hi'
        · have := slack_lt (B := B) hle g1 g2 g3 g4 hnew
          exact ihw (slack B P s') (by omega) _ s' _ (Nat.le_refl _) (Nat.le_refl _) hl' hb' hi'
      obtain ⟨k, s'', h⟩ := fin
      exact ⟨k + 1, s'', by rw [iter, hw]; exact h⟩

theorem start_below {P : Problem} {na : Nat} (hp : ∀ t, P.prim t = decide (t < na))
    (habs : ∀ m < P.numMethods, P.prim (P.head m) = false) : Below P (start P na) := by
  constructor
  · intro m _; exact Nat.zero_le _
  · intro m _; exact Nat.zero_le _
  · intro m hm
    have := habs _ hm
    rw [hp] at this
    simp [start, (by simpa using this : ¬ P.head _ < na)]
  · intro m hm
    have := habs _ hm
    rw [hp] at this
    simp [start, (by simpa using this : ¬ P.head _ < na)]

end Verif.MinImplied
