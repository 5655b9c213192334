import Verif.MinImplied
import Verif.ToTransInput

/-! # The smallest bound of the translations to SAS+

Model of `HTNToSASTranslation::calcMinimalProgressionBound` and `minProgressionBound` (src/translation/htnToSAS.cpp 419-427,
440-540).  A value above `B` (`INT_MAX`) is an integer overflow and a distinct outcome (`none`). -/

namespace Verif.Pgb

open Verif.Htn Verif.Sas
open Verif.MinImplied (Item methodsOf methodsWith mem_methodsOf mem_methodsWith startQueue mem_startQueue minOver minOver_le_of_mem
  le_minOver minOver_mem ItemOk valid_node le_update)

/-- `minImpliedPGB` and `minImpliedPGBM`, htnToSAS.cpp 448-449. -/
structure Vals where
  t : Nat → Nat
  m : Nat → Nat

/-- Initial values, htnToSAS.cpp 451-461. -/
def start (nA : Nat) : Vals where
  t i := if i < nA then 1 else 0
  m _ := 0

/-- `minAdditionalDistance`, htnToSAS.cpp 486-499, for a method for task `t` with `n` subtasks of which the first `off` are not put
on the stack.  `add` may be negative in the code, then the maximum does not change. -/
def pgbAdd (n off t : Nat) (order : List Nat) (v : Nat → Nat) : Nat :=
  (List.range (n - off)).foldl (fun d i =>
    let st := order[i]?.getD 0
    let d := if st = t then (if d < n - 1 - i - off then n - 1 - i - off else d) else d
    if v st + i + off - n > d then v st + i + off - n else d) 0

/-- The new value of a method, htnToSAS.cpp 482-500. -/
def pgbMeth (n off t : Nat) (order : List Nat) (v : Nat → Nat) : Nat :=
  (if n - off < 1 then 1 else n - off) + pgbAdd n off t order v

/-- `off`, htnToSAS.cpp 477-480. -/
def offOf (isTo : Bool) (r : Reo) : Nat := if isTo then r.first else 0

/-- One iteration of the loop for the entry taken from the front: new values and the entries appended, htnToSAS.cpp 473-527. -/
def work (B : Nat) (P : Problem) (isTo : Bool) (reo : Nat → Reo) (s : Vals) : Item → Option (Vals × List Item)
  | .meth m =>
    let c := pgbMeth (P.sub m).length (offOf isTo (reo m)) (P.head m) (reo m).order s.t
    if c > B then none
    else some ({ s with m := Function.update s.m m c }, if c ≠ s.m m then [.task (P.head m)] else [])
  | .task t =>
    let c := minOver B s.m (methodsOf P t)
    some ({ s with t := Function.update s.t t c }, if c ≠ s.t t then (methodsWith P t).map .meth else [])

/-- At most `k` iterations of the loop, htnToSAS.cpp 473-527; `none`: overflow. -/
def iter (B : Nat) (P : Problem) (isTo : Bool) (reo : Nat → Reo) : Nat → Vals × List Item → Option (Vals × List Item)
  | 0, c => some c
  | _ + 1, (s, []) => some (s, [])
  | k + 1, (s, i :: q) =>
    match work B P isTo reo s i with
    | none => none
    | some (s', new) => iter B P isTo reo k (s', q ++ new)

/-- `minProgressionBound`, htnToSAS.cpp 419-425. -/
def minBound (P : Problem) (s : Vals) : Nat := if s.t P.init < 1 then 1 else s.t P.init

/-! ## The value of a method -/

/-- What the value of a method is the least number above: the number of cells its subtasks take, and the cells that are taken when a
subtask is worked off. -/
def Above (n off t : Nat) (order : List Nat) (v : Nat → Nat) (y : Nat) : Prop :=
  1 ≤ y ∧ n - off ≤ y ∧ ∀ i < n - off, v (order[i]?.getD 0) + i ≤ y ∧ (order[i]?.getD 0 = t → 2 * (n - off) - 1 - i ≤ y)

theorem pgbAdd_le (n off t : Nat) (order : List Nat) (v : Nat → Nat) (y : Nat) : pgbAdd n off t order v ≤ y ↔
    ∀ i < n - off, v (order[i]?.getD 0) + i + off - n ≤ y ∧ (order[i]?.getD 0 = t → n - 1 - i - off ≤ y) := by
  have key : ∀ (l : List Nat) (d : Nat), l.foldl (fun d i =>
      let st := order[i]?.getD 0
      let d := if st = t then (if d < n - 1 - i - off then n - 1 - i - off else d) else d
      if v st + i + off - n > d then v st + i + off - n else d) d ≤ y ↔
      d ≤ y ∧ ∀ i ∈ l, v (order[i]?.getD 0) + i + off - n ≤ y ∧ (order[i]?.getD 0 = t → n - 1 - i - off ≤ y) := by
    intro l
    induction l with
    | nil => simp
    | cons i l ih =>
      intro d
      rw [List.foldl_cons, ih]
      simp only [List.mem_cons, forall_eq_or_imp]
      rw [← and_assoc]
      refine and_congr_left fun _ => ?_
      generalize order[i]?.getD 0 = st
      by_cases e : st = t
      · simp only [e, if_true, forall_const]
        split_ifs <;> omega
      · simp only [e, if_false, false_implies, and_true]
        split_ifs <;> omega
  rw [pgbAdd, key]
  simp

theorem pgbMeth_le {n off t : Nat} {order : List Nat} {v : Nat → Nat} {y : Nat} :
    pgbMeth n off t order v ≤ y ↔ Above n off t order v y := by
  have h := pgbAdd_le n off t order v (y - (if n - off < 1 then 1 else n - off))
  rw [pgbMeth, Above]
  constructor
  · intro hy
    have h' := h.1 (by omega)
    refine ⟨by split at hy <;> omega, by split at hy <;> omega, fun i hi => ?_⟩
    obtain ⟨h1, h2⟩ := h' i hi
    rw [if_neg (by omega)] at h1 h2 hy
    exact ⟨by omega, fun e => by have := h2 e; omega⟩
  · rintro ⟨h1, h2, h3⟩
    have h' := h.2 fun i hi => by
      obtain ⟨h4, h5⟩ := h3 i hi
      rw [if_neg (by omega)]
      exact ⟨by omega, fun e => by have := h5 e; omega⟩
    split at h' <;> split <;> omega

theorem pgbMeth_mono {n off t : Nat} {order : List Nat} {v w : Nat → Nat} (h : ∀ x, v x ≤ w x) :
    pgbMeth n off t order v ≤ pgbMeth n off t order w := by
  have := pgbMeth_le.1 (le_refl (pgbMeth n off t order w))
  refine pgbMeth_le.2 ⟨this.1, this.2.1, fun i hi => ⟨?_, (this.2.2 i hi).2⟩⟩
  have := (this.2.2 i hi).1
  have := h (order[i]?.getD 0)
  omega

theorem pgbMeth_pos {n off t : Nat} {order : List Nat} {v : Nat → Nat} : 1 ≤ pgbMeth n off t order v :=
  (pgbMeth_le.1 (le_refl _)).1

/-! ## Lower bounds -/

section

variable {P : Problem} {isTo : Bool} {reo : Nat → Reo} {B : Nat}

/-- The order that the translation uses is the reverse one; the first subtasks that are not put on the stack are actions. -/
structure ReoOK (P : Problem) (isTo : Bool) (reo : Nat → Reo) : Prop where
  order : ∀ m < P.numMethods, (reo m).order = (P.sub m).reverse
  lead : ∀ m < P.numMethods, offOf isTo (reo m) ≤ (P.sub m).length

/-- The tree can be worked off with a stack of `h` cells. -/
abbrev TFits (P : Problem) (isTo : Bool) (reo : Nat → Reo) (tr : Htn.Tree) (h : Nat) : Prop :=
  Fits P (fun m => List.range (P.sub m).length) (fun m => offOf isTo (reo m)) tr h

/-- The method has its own task as a subtask. -/
def SelfRec (P : Problem) (m : Nat) : Prop := P.head m ∈ P.sub m

/-- The subtask that is at point `i` of the stack. -/
theorem ReoOK.sub (hr : ReoOK P isTo reo) {m : Nat} (hm : m < P.numMethods) {i : Nat} (hi : i < (P.sub m).length - offOf isTo (reo m)) :
    (P.sub m)[(P.sub m).length - 1 - i]? = some ((reo m).order[i]?.getD 0) := by
  rw [hr.order m hm, List.getElem?_reverse (by omega), List.getElem?_eq_getElem (by omega)]
  rfl

theorem tfits_child (hr : ReoOK P isTo reo) {m : Nat} (hm : m < P.numMethods) {cs : Nat → Htn.Tree} {h : Nat}
    (hf : TFits P isTo reo (.node m cs) h) {i : Nat} (hi : i < (P.sub m).length - offOf isTo (reo m)) :
    TFits P isTo reo (cs ((P.sub m).length - 1 - i)) (h - i) := by
  cases hf with
  | node _ _ h3 =>
    have := h3 ((P.sub m).length - offOf isTo (reo m) - 1 - i) ((P.sub m).length - 1 - i)
      (by rw [List.getElem?_range (by omega)]; congr 1; have := hr.lead m hm; omega)
    rwa [show (P.sub m).length - offOf isTo (reo m) - 1 - ((P.sub m).length - offOf isTo (reo m) - 1 - i) = i from by omega] at this

/-- The values are lower bounds, for tasks and for methods that do not have their own task as a subtask on the stack. -/
structure Lower (P : Problem) (isTo : Bool) (reo : Nat → Reo) (s : Vals) : Prop where
  tree : ∀ tr t h, Valid P t tr → TFits P isTo reo tr h → s.t t ≤ h
  meth : ∀ m cs h, Valid P (P.head m) (.node m cs) → TFits P isTo reo (.node m cs) h →
    (∀ i < (P.sub m).length - offOf isTo (reo m), (reo m).order[i]?.getD 0 ≠ P.head m) → s.m m ≤ h

theorem start_lower {nA : Nat} (hp : ∀ t, P.prim t = decide (t < nA)) (habs : ∀ m < P.numMethods, P.prim (P.head m) = false) :
    Lower P isTo reo (start nA) := by
  constructor
  · intro tr t h hv hf
    have := hf.pos
    simp only [start]
    split_ifs <;> omega
  · intro m cs h _ _ _
    exact Nat.zero_le _

theorem meth_lower (hr : ReoOK P isTo reo) {s : Vals} (hl : Lower P isTo reo s) {m : Nat} (hm : m < P.numMethods) {cs : Nat → Htn.Tree} {h : Nat}
    (hv : Valid P (P.head m) (.node m cs)) (hf : TFits P isTo reo (.node m cs) h)
    (hs : ∀ i < (P.sub m).length - offOf isTo (reo m), (reo m).order[i]?.getD 0 ≠ P.head m) :
    pgbMeth (P.sub m).length (offOf isTo (reo m)) (P.head m) (reo m).order s.t ≤ h := by
  refine pgbMeth_le.2 ⟨hf.pos, by cases hf; assumption, fun i hi => ⟨?_, fun e => absurd e (hs i hi)⟩⟩
  have hf' := tfits_child hr hm hf hi
  have := hl.tree _ _ _ ((valid_node hv).2.2 _ _ (hr.sub hm hi)) hf'
  have := hf'.pos
  omega

theorem work_lower (hr : ReoOK P isTo reo) {s s' : Vals} {i : Item} {new : List Item} (hi : ItemOk P i)
    (habs : ∀ m < P.numMethods, P.prim (P.head m) = false)
    (hl : Lower P isTo reo s) (hw : work B P isTo reo s i = some (s', new)) : Lower P isTo reo s' := by
  cases i with
  | meth m =>
    have hm : m < P.numMethods := hi
    simp only [work] at hw
    split at hw
    · cases hw
    · simp only [Option.some.injEq, Prod.mk.injEq] at hw
      obtain ⟨rfl, -⟩ := hw
      refine ⟨hl.tree, fun m' cs h hv hf hs => ?_⟩
      by_cases e : m' = m
      · subst e
        simp only [Function.update_self]
        exact meth_lower hr hl hm hv hf hs
      · simpa [Function.update_of_ne e] using hl.meth m' cs h hv hf hs
  | task t =>
    simp only [work, Option.some.injEq, Prod.mk.injEq] at hw
    obtain ⟨rfl, -⟩ := hw
    refine ⟨fun tr t' h hv hf => ?_, hl.meth⟩
    induction hv generalizing h with
    | @leaf a ha =>
      by_cases e : a = t
      · subst e
        obtain ⟨m, hm, rfl⟩ := hi
        rw [habs m hm] at ha
        cases ha
      · simp only [Function.update_of_ne e]
        exact hl.tree _ _ _ (.leaf ha) hf
    | @node m cs hm hc ih =>
      have hv := Valid.node hm hc
      by_cases e : P.head m = t
      · simp only [e, Function.update_self]
        by_cases hs : ∀ i < (P.sub m).length - offOf isTo (reo m), (reo m).order[i]?.getD 0 ≠ P.head m
        · exact (minOver_le_of_mem _ _ (mem_methodsOf.2 ⟨hm, e⟩)).trans (hl.meth m cs h hv hf hs)
        · push Not at hs
          obtain ⟨i, hi, hs⟩ := hs
          have := ih _ _ (hr.sub hm hi) _ (tfits_child hr hm hf hi)
          simp only [hs, e, Function.update_self] at this
          omega
      · simp only [Function.update_of_ne e]
        exact hl.tree _ _ _ hv hf

theorem work_items {s s' : Vals} {i : Item} {new : List Item} (hi : ItemOk P i) (hw : work B P isTo reo s i = some (s', new)) :
    ∀ j ∈ new, ItemOk P j := by
  cases i with
  | meth m =>
    simp only [work] at hw
    split at hw
    · cases hw
    · simp only [Option.some.injEq, Prod.mk.injEq] at hw
      obtain ⟨-, rfl⟩ := hw
      intro j hj
      split at hj
      · rw [List.mem_singleton] at hj
        subst hj
        exact ⟨m, hi, rfl⟩
      · simp at hj
  | task t =>
    simp only [work, Option.some.injEq, Prod.mk.injEq] at hw
    obtain ⟨-, rfl⟩ := hw
    intro j hj
    split at hj
    · simp only [List.mem_map, mem_methodsWith] at hj
      obtain ⟨m, ⟨hm, -⟩, rfl⟩ := hj
      exact hm
    · simp at hj

/-- An invariant of single iterations is an invariant of the loop. -/
theorem iter_invariant (Q : Vals → List Item → Prop)
    (hstep : ∀ s i q s' new, Q s (i :: q) → work B P isTo reo s i = some (s', new) → Q s' (q ++ new)) :
    ∀ (k : Nat) (s : Vals) (q : List Item), Q s q → ∀ s' q', iter B P isTo reo k (s, q) = some (s', q') → Q s' q' := by
  intro k
  induction k with
  | zero => intro s q h s' q' e; simp only [iter, Option.some.injEq, Prod.mk.injEq] at e; rw [← e.1, ← e.2]; exact h
  | succ k ih =>
    intro s q h s' q' e
    cases q with
    | nil => simp only [iter, Option.some.injEq, Prod.mk.injEq] at e; rw [← e.1, ← e.2]; exact h
    | cons i q =>
      rw [iter] at e
      cases hw : work B P isTo reo s i with
      | none => rw [hw] at e; simp at e
      | some r =>
        obtain ⟨s1, new⟩ := r
        rw [hw] at e
        exact ih s1 (q ++ new) (hstep s i q s1 new h hw) s' q' e

theorem startQueue_ok {nA : Nat} : ∀ i ∈ startQueue P nA, ItemOk P i := by
  intro i hi
  obtain ⟨m, rfl, hm, -⟩ := mem_startQueue.1 hi
  exact hm

theorem iter_lower {nA : Nat} (hr : ReoOK P isTo reo) (hp : ∀ t, P.prim t = decide (t < nA))
    (habs : ∀ m < P.numMethods, P.prim (P.head m) = false) {k : Nat} {s : Vals} {q : List Item}
    (h : iter B P isTo reo k (start nA, startQueue P nA) = some (s, q)) : Lower P isTo reo s := by
  refine (iter_invariant (B := B) (fun s q => Lower P isTo reo s ∧ ∀ i ∈ q, ItemOk P i) ?_ k _ _ ⟨start_lower hp habs, startQueue_ok⟩ _ _ h).1
  intro s i q s' new ⟨hl, hq⟩ hw
  refine ⟨work_lower hr (hq i (by simp)) habs hl hw, fun j hj => ?_⟩
  rcases List.mem_append.1 hj with hj | hj
  · exact hq j (by simp [hj])
  · exact work_items (hq i (by simp)) hw j hj

/-! ## Monotonicity and termination -/

/-- Every stored value is at most what recomputing it would give. -/
structure Below (P : Problem) (isTo : Bool) (reo : Nat → Reo) (s : Vals) : Prop where
  m : ∀ m < P.numMethods, s.m m ≤ pgbMeth (P.sub m).length (offOf isTo (reo m)) (P.head m) (reo m).order s.t
  t : ∀ m < P.numMethods, s.t (P.head m) ≤ s.m m

/-- Every subtask can be decomposed; the values stay below `B`. -/
def Productive (B : Nat) (P : Problem) (isTo : Bool) (reo : Nat → Reo) : Prop :=
  ∀ m < P.numMethods, 2 * (P.sub m).length + 1 ≤ B ∧
    ∀ t ∈ P.sub m, ∃ tr h, Valid P t tr ∧ TFits P isTo reo tr h ∧ h + (P.sub m).length ≤ B

theorem productive_le (hr : ReoOK P isTo reo) (hB : Productive B P isTo reo) {s : Vals} (hl : Lower P isTo reo s) {m : Nat} (hm : m < P.numMethods) :
    pgbMeth (P.sub m).length (offOf isTo (reo m)) (P.head m) (reo m).order s.t ≤ B := by
  obtain ⟨h1, h2⟩ := hB m hm
  refine pgbMeth_le.2 ⟨by omega, by omega, fun i hi => ⟨?_, fun _ => by omega⟩⟩
  obtain ⟨tr, h, hv, hf, hh⟩ := h2 _ (List.mem_of_getElem? (hr.sub hm hi))
  have := hl.tree _ _ _ hv hf
  omega

theorem work_spec (hr : ReoOK P isTo reo) (hB : Productive B P isTo reo) {s : Vals} (hl : Lower P isTo reo s) (hb : Below P isTo reo s)
    {i : Item} (hi : ItemOk P i) : ∃ s' new, work B P isTo reo s i = some (s', new) ∧ Below P isTo reo s' ∧
      (∀ t, s.t t ≤ s'.t t) ∧ (∀ m, s.m m ≤ s'.m m) ∧
      (new = [] ∨ (∃ m < P.numMethods, s.m m < s'.m m) ∨ ∃ m < P.numMethods, s.t (P.head m) < s'.t (P.head m)) := by
  cases i with
  | meth m =>
    have hm : m < P.numMethods := hi
    have hle := productive_le hr hB hl hm
    have g := le_update (hb.m m hm)
    have hw : work B P isTo reo s (.meth m) = some (⟨s.t, Function.update s.m m
          (pgbMeth (P.sub m).length (offOf isTo (reo m)) (P.head m) (reo m).order s.t)⟩,
        if pgbMeth (P.sub m).length (offOf isTo (reo m)) (P.head m) (reo m).order s.t ≠ s.m m then [.task (P.head m)] else []) := by
      simp only [work]
      rw [if_neg (by omega)]
    refine ⟨_, _, hw, ⟨fun x hx => ?_, fun x hx => (hb.t x hx).trans (g x)⟩, fun _ => le_refl _, g, ?_⟩
    · by_cases e : x = m
      · subst e; simp
      · simpa [Function.update_of_ne e] using hb.m x hx
    · have := hb.m m hm
      split_ifs with hc
      · exact .inr (.inl ⟨m, hm, by simp only [Function.update_self]; omega⟩)
      · exact .inl rfl
  | task t =>
    obtain ⟨m0, hm0, rfl⟩ := hi
    have a : s.t (P.head m0) ≤ minOver B s.m (methodsOf P (P.head m0)) := by
      refine le_minOver _ (((hb.t m0 hm0).trans (hb.m m0 hm0)).trans (productive_le hr hB hl hm0)) fun m hm => ?_
      obtain ⟨hm, e⟩ := mem_methodsOf.1 hm
      rw [← e]
      exact hb.t m hm
    have g := le_update a
    refine ⟨_, _, rfl, ⟨fun x hx => (hb.m x hx).trans (pgbMeth_mono g), fun x hx => ?_⟩, g, fun _ => le_refl _, ?_⟩
    · by_cases e : P.head x = P.head m0
      · simp only [e, Function.update_self]
        exact minOver_le_of_mem _ _ (mem_methodsOf.2 ⟨hx, e⟩)
      · simpa [Function.update_of_ne e] using hb.t x hx
    · split_ifs with hc
      · exact .inr (.inr ⟨m0, hm0, by simp only [Function.update_self]; omega⟩)
      · exact .inl rfl

/-- How much the values can still grow. -/
def slack (B : Nat) (P : Problem) (s : Vals) : Nat := ∑ m ∈ Finset.range P.numMethods, ((B - s.m m) + (B - s.t (P.head m)))

theorem iter_terminates (hr : ReoOK P isTo reo) (habs : ∀ m < P.numMethods, P.prim (P.head m) = false) (hB : Productive B P isTo reo) :
    ∀ (w l : Nat) (s : Vals) (q : List Item), slack B P s ≤ w → q.length ≤ l → Lower P isTo reo s → Below P isTo reo s →
      (∀ i ∈ q, ItemOk P i) → ∃ k s', iter B P isTo reo k (s, q) = some (s', []) := by
  intro w
  induction w using Nat.strong_induction_on with
  | _ w ihw =>
  intro l
  induction l with
  | zero =>
    intro s q _ hq _ _ _
    rw [List.length_eq_zero_iff.1 (Nat.le_zero.1 hq)]
    exact ⟨0, s, rfl⟩
  | succ l ihl =>
    intro s q hs hq hl hb hi
    cases q with
    | nil => exact ⟨0, s, rfl⟩
    | cons i q =>
      obtain ⟨s', new, hw, hb', g1, g2, hnew⟩ := work_spec hr hB hl hb (hi i (by simp))
      have hl' : Lower P isTo reo s' := work_lower hr (hi i (by simp)) habs hl hw
      have hi' : ∀ j ∈ q ++ new, ItemOk P j := by
        intro j hj
        rcases List.mem_append.1 hj with hj | hj
        · exact hi j (by simp [hj])
        · exact work_items (hi i (by simp)) hw j hj
      have hle : ∀ m < P.numMethods, s'.m m ≤ B ∧ s'.t (P.head m) ≤ B := fun m hm => by
        have h1 := (hb'.m m hm).trans (productive_le hr hB hl' hm)
        exact ⟨h1, (hb'.t m hm).trans h1⟩
      have fin : ∃ k s'', iter B P isTo reo k (s', q ++ new) = some (s'', []) := by
        have hslack : slack B P s' ≤ slack B P s := by
          refine Finset.sum_le_sum fun x _ => ?_
          have := g1 (P.head x); have := g2 x; omega
        rcases hnew with rfl | hnew
        · exact ihl s' _ (hslack.trans hs) (by simp at hq ⊢; omega) hl' hb' hi'
        · have hlt : slack B P s' < slack B P s := by
            obtain ⟨m, hm, hlt⟩ : ∃ m < P.numMethods, s.m m + s.t (P.head m) < s'.m m + s'.t (P.head m) := by
              rcases hnew with ⟨m, hm, h⟩ | ⟨m, hm, h⟩
              · exact ⟨m, hm, by have := g1 (P.head m); omega⟩
              · exact ⟨m, hm, by have := g2 m; omega⟩
            refine Finset.sum_lt_sum (fun x _ => ?_) ⟨m, Finset.mem_range.2 hm, ?_⟩
            · have := g1 (P.head x); have := g2 x; omega
            · have := g1 (P.head m); have := g2 m; have := hle m hm; omega
          exact ihw (slack B P s') (by omega) _ s' _ (le_refl _) (le_refl _) hl' hb' hi'
      obtain ⟨k, s'', h⟩ := fin
      exact ⟨k + 1, s'', by rw [iter, hw]; exact h⟩

theorem start_below {nA : Nat} (hp : ∀ t, P.prim t = decide (t < nA)) (habs : ∀ m < P.numMethods, P.prim (P.head m) = false) :
    Below P isTo reo (start nA) := by
  refine ⟨fun m _ => Nat.zero_le _, fun m hm => ?_⟩
  have := habs _ hm
  rw [hp] at this
  simp [start, (by simpa using this : ¬ P.head _ < nA)]

/-! ## The result -/

/-- Values that are not up to date are still in the work list; a method that has not been reached has only subtasks with value 0. -/
structure Fix (B : Nat) (P : Problem) (isTo : Bool) (reo : Nat → Reo) (nA : Nat) (s : Vals) (q : List Item) : Prop where
  act : ∀ a < nA, s.t a = 1
  m : ∀ m < P.numMethods, s.m m = pgbMeth (P.sub m).length (offOf isTo (reo m)) (P.head m) (reo m).order s.t ∨ .meth m ∈ q ∨
    (s.m m = 0 ∧ ∀ t ∈ P.sub m, s.t t = 0)
  t : ∀ m < P.numMethods, s.t (P.head m) = minOver B s.m (methodsOf P (P.head m)) ∨ .task (P.head m) ∈ q

theorem start_fix {nA : Nat} (hp : ∀ t, P.prim t = decide (t < nA)) (habs : ∀ m < P.numMethods, P.prim (P.head m) = false) :
    Fix B P isTo reo nA (start nA) (startQueue P nA) where
  act a ha := by simp [start, ha]
  m m hm := by
    by_cases h : ∃ t ∈ P.sub m, t < nA
    · exact .inr (.inl (mem_startQueue.2 ⟨m, rfl, hm, h⟩))
    · push Not at h
      exact .inr (.inr ⟨rfl, fun t ht => by have := h t ht; simp only [start]; rw [if_neg (by omega)]⟩)
  t m hm := by
    left
    have := habs _ hm
    rw [hp] at this
    have hle := minOver_le_of_mem (v := (start nA).m) _ B (mem_methodsOf.2 ⟨hm, rfl⟩)
    have h0 : (start nA).m m = 0 := rfl
    simp only [start] at hle h0 ⊢
    rw [if_neg (by simpa using this)]
    omega

theorem pgbMeth_congr (hr : ReoOK P isTo reo) {m : Nat} (hm : m < P.numMethods) {v w : Nat → Nat} (h : ∀ t ∈ P.sub m, v t = w t) :
    pgbMeth (P.sub m).length (offOf isTo (reo m)) (P.head m) (reo m).order v =
      pgbMeth (P.sub m).length (offOf isTo (reo m)) (P.head m) (reo m).order w := by
  have key : ∀ v w : Nat → Nat, (∀ t ∈ P.sub m, v t = w t) → pgbMeth (P.sub m).length (offOf isTo (reo m)) (P.head m) (reo m).order v ≤
      pgbMeth (P.sub m).length (offOf isTo (reo m)) (P.head m) (reo m).order w := by
    intro v w h
    have := pgbMeth_le.1 (le_refl (pgbMeth (P.sub m).length (offOf isTo (reo m)) (P.head m) (reo m).order w))
    refine pgbMeth_le.2 ⟨this.1, this.2.1, fun i hi => ⟨?_, (this.2.2 i hi).2⟩⟩
    rw [h _ (List.mem_of_getElem? (hr.sub hm hi))]
    exact (this.2.2 i hi).1
  exact le_antisymm (key _ _ h) (key _ _ fun t ht => (h t ht).symm)

theorem minOver_congr {v w : Nat → Nat} : ∀ (l : List Nat) (x : Nat), (∀ m ∈ l, v m = w m) → minOver x v l = minOver x w l := by
  intro l
  induction l with
  | nil => intro x _; rfl
  | cons a l ih =>
    intro x h
    show minOver (min (v a) x) v l = minOver (min (w a) x) w l
    rw [h a (by simp)]
    exact ih _ fun m hm => h m (by simp [hm])

theorem work_fix {nA : Nat} (hr : ReoOK P isTo reo) (hp : ∀ t, P.prim t = decide (t < nA))
    (habs : ∀ m < P.numMethods, P.prim (P.head m) = false) {s s' : Vals} {i : Item} {q new : List Item} (hi : ItemOk P i)
    (hf : Fix B P isTo reo nA s (i :: q)) (hw : work B P isTo reo s i = some (s', new)) : Fix B P isTo reo nA s' (q ++ new) := by
  cases i with
  | meth m =>
    have hm : m < P.numMethods := hi
    simp only [work] at hw
    split at hw
    · cases hw
    · simp only [Option.some.injEq, Prod.mk.injEq] at hw
      obtain ⟨rfl, rfl⟩ := hw
      refine ⟨hf.act, fun x hx => ?_, fun x hx => ?_⟩
      · by_cases e : x = m
        · subst e
          exact .inl (by simp)
        · simp only [Function.update_of_ne e]
          rcases hf.m x hx with h | h | h
          · exact .inl h
          · exact .inr (.inl (List.mem_append_left _ (by simpa [e] using h)))
          · exact .inr (.inr h)
      · by_cases hc : pgbMeth (P.sub m).length (offOf isTo (reo m)) (P.head m) (reo m).order s.t = s.m m
        · rw [if_neg (by simpa using hc), List.append_nil]
          simp only [hc, Function.update_eq_self]
          rcases hf.t x hx with h | h
          · exact .inl h
          · exact .inr (by simpa using h)
        · rw [if_pos hc]
          by_cases e : P.head x = P.head m
          · exact .inr (by simp [e])
          · have hu : ∀ y ∈ methodsOf P (P.head x), Function.update s.m m
                (pgbMeth (P.sub m).length (offOf isTo (reo m)) (P.head m) (reo m).order s.t) y = s.m y := fun y hy =>
              Function.update_of_ne (fun e' => e (by rw [← (mem_methodsOf.1 hy).2, e'])) _ _
            rcases hf.t x hx with h | h
            · exact .inl (by rw [minOver_congr _ _ hu]; exact h)
            · exact .inr (List.mem_append_left _ (by simpa using h))
  | task t =>
    obtain ⟨m0, hm0, rfl⟩ := hi
    simp only [work, Option.some.injEq, Prod.mk.injEq] at hw
    obtain ⟨rfl, rfl⟩ := hw
    have hna : ¬ P.head m0 < nA := by
      have := habs _ hm0
      rw [hp] at this
      simpa using this
    refine ⟨fun a ha => ?_, fun x hx => ?_, fun x hx => ?_⟩
    · simp only [Function.update_of_ne (show a ≠ P.head m0 from fun e => hna (e ▸ ha))]
      exact hf.act a ha
    · by_cases hc : minOver B s.m (methodsOf P (P.head m0)) = s.t (P.head m0)
      · rw [if_neg (by simpa using hc), List.append_nil]
        simp only [hc, Function.update_eq_self]
        rcases hf.m x hx with h | h | h
        · exact .inl h
        · exact .inr (.inl (by simpa using h))
        · exact .inr (.inr h)
      · rw [if_pos hc]
        by_cases e : P.head m0 ∈ P.sub x
        · exact .inr (.inl (List.mem_append_right _ (List.mem_map_of_mem (mem_methodsWith.2 ⟨hx, e⟩))))
        · have hu : ∀ y ∈ P.sub x, Function.update s.t (P.head m0) (minOver B s.m (methodsOf P (P.head m0))) y = s.t y := fun y hy =>
            Function.update_of_ne (fun e' : y = P.head m0 => e (e' ▸ hy)) _ _
          rcases hf.m x hx with h | h | h
          · exact .inl (by rw [pgbMeth_congr hr hx hu]; exact h)
          · exact .inr (.inl (List.mem_append_left _ (by simpa using h)))
          · exact .inr (.inr ⟨h.1, fun y hy => by simp only [hu y hy]; exact h.2 y hy⟩)
    · by_cases e : P.head x = P.head m0
      · exact .inl (by simp [e])
      · simp only [Function.update_of_ne e]
        rcases hf.t x hx with h | h
        · exact .inl h
        · exact .inr (List.mem_append_left _ (by simpa [e] using h))

theorem iter_fix {nA : Nat} (hr : ReoOK P isTo reo) (hp : ∀ t, P.prim t = decide (t < nA))
    (habs : ∀ m < P.numMethods, P.prim (P.head m) = false) {k : Nat} {s : Vals} {q : List Item}
    (h : iter B P isTo reo k (start nA, startQueue P nA) = some (s, q)) : Fix B P isTo reo nA s q := by
  refine (iter_invariant (B := B) (fun s q => Fix B P isTo reo nA s q ∧ ∀ i ∈ q, ItemOk P i) ?_ k _ _ ⟨start_fix hp habs, startQueue_ok⟩ _ _ h).1
  intro s i q s' new ⟨hl, hq⟩ hw
  refine ⟨work_fix hr hp habs (hq i (by simp)) hl hw, fun j hj => ?_⟩
  rcases List.mem_append.1 hj with hj | hj
  · exact hq j (by simp [hj])
  · exact work_items (hq i (by simp)) hw j hj

/-! ## The values are the smallest ones -/

/-- Another solution of the equations, or values above one. -/
structure Sol (P : Problem) (isTo : Bool) (reo : Nat → Reo) (nA : Nat) (w : Vals) : Prop where
  act : ∀ a < nA, 1 ≤ w.t a
  m : ∀ m < P.numMethods, pgbMeth (P.sub m).length (offOf isTo (reo m)) (P.head m) (reo m).order w.t ≤ w.m m ∨ ∀ t ∈ P.sub m, w.t t = 0
  t : ∀ m < P.numMethods, ∃ m' ∈ methodsOf P (P.head m), w.m m' ≤ w.t (P.head m)

/-- What holds during the computation. -/
structure Grow (B : Nat) (P : Problem) (isTo : Bool) (reo : Nat → Reo) (w : Vals) (s : Vals) (q : List Item) : Prop where
  below : Below P isTo reo s
  le : ∀ m, s.m m ≤ B
  wt : ∀ t, s.t t ≤ w.t t
  wm : ∀ m < P.numMethods, s.m m ≤ w.m m
  items : ∀ i ∈ q, ItemOk P i
  reached : ∀ m, .meth m ∈ q → ∃ t ∈ P.sub m, s.t t ≠ 0

theorem work_grow {nA : Nat} {w : Vals} (hw' : Sol P isTo reo nA w) {s s' : Vals} {i : Item} {q new : List Item}
    (hg : Grow B P isTo reo w s (i :: q)) (hw : work B P isTo reo s i = some (s', new)) : Grow B P isTo reo w s' (q ++ new) := by
  have hit : ∀ j ∈ q ++ new, ItemOk P j := by
    intro j hj
    rcases List.mem_append.1 hj with hj | hj
    · exact hg.items j (by simp [hj])
    · exact work_items (hg.items i (by simp)) hw j hj
  cases i with
  | meth m =>
    have hm : m < P.numMethods := hg.items (.meth m) (by simp)
    simp only [work] at hw
    split at hw
    · cases hw
    · rename_i hc
      simp only [Option.some.injEq, Prod.mk.injEq] at hw
      obtain ⟨rfl, rfl⟩ := hw
      have g := le_update (hg.below.m m hm)
      refine ⟨⟨fun x hx => ?_, fun x hx => (hg.below.t x hx).trans (g x)⟩, fun x => ?_, hg.wt, fun x hx => ?_, hit, fun x hx => ?_⟩
      · by_cases e : x = m
        · subst e; simp
        · simpa [Function.update_of_ne e] using hg.below.m x hx
      · by_cases e : x = m
        · subst e; simp only [Function.update_self]; omega
        · simpa [Function.update_of_ne e] using hg.le x
      · by_cases e : x = m
        · subst e
          simp only [Function.update_self]
          rcases hw'.m x hx with h | h
          · exact (pgbMeth_mono hg.wt).trans h
          · obtain ⟨t, ht, hn⟩ := hg.reached x (by simp)
            have := hg.wt t
            have := h t ht
            omega
        · simpa [Function.update_of_ne e] using hg.wm x hx
      · rcases List.mem_append.1 hx with hx | hx
        · exact hg.reached x (.tail _ hx)
        · split at hx <;> simp at hx
  | task t =>
    obtain ⟨m0, hm0, rfl⟩ : ItemOk P (.task t) := hg.items _ (by simp)
    simp only [work, Option.some.injEq, Prod.mk.injEq] at hw
    obtain ⟨rfl, rfl⟩ := hw
    have a : s.t (P.head m0) ≤ minOver B s.m (methodsOf P (P.head m0)) := by
      refine le_minOver _ ((hg.below.t m0 hm0).trans (hg.le m0)) fun m hm => ?_
      obtain ⟨hm, e⟩ := mem_methodsOf.1 hm
      rw [← e]
      exact hg.below.t m hm
    have g := le_update a
    refine ⟨⟨fun x hx => (hg.below.m x hx).trans (pgbMeth_mono g), fun x hx => ?_⟩, hg.le, fun x => ?_, hg.wm, hit, fun x hx => ?_⟩
    · by_cases e : P.head x = P.head m0
      · simp only [e, Function.update_self]
        exact minOver_le_of_mem _ _ (mem_methodsOf.2 ⟨hx, e⟩)
      · simpa [Function.update_of_ne e] using hg.below.t x hx
    · by_cases e : x = P.head m0
      · subst e
        simp only [Function.update_self]
        obtain ⟨m', hm', h⟩ := hw'.t m0 hm0
        exact (minOver_le_of_mem _ _ hm').trans ((hg.wm m' (mem_methodsOf.1 hm').1).trans h)
      · simpa [Function.update_of_ne e] using hg.wt x
    · rcases List.mem_append.1 hx with hx | hx
      · obtain ⟨t, ht, hn⟩ := hg.reached x (.tail _ hx)
        exact ⟨t, ht, by have := g t; simp only; omega⟩
      · split at hx
        · rename_i hne
          simp only [List.mem_map, mem_methodsWith, Item.meth.injEq, exists_eq_right] at hx
          exact ⟨_, hx.2, by simp only [Function.update_self]; omega⟩
        · simp at hx

theorem iter_least {nA : Nat} (hp : ∀ t, P.prim t = decide (t < nA)) (habs : ∀ m < P.numMethods, P.prim (P.head m) = false)
    {w : Vals} (hw : Sol P isTo reo nA w) {k : Nat} {s : Vals} {q : List Item}
    (h : iter B P isTo reo k (start nA, startQueue P nA) = some (s, q)) : Grow B P isTo reo w s q := by
  refine iter_invariant (B := B) (Grow B P isTo reo w) (fun _ _ _ _ _ hg h => work_grow hw hg h) k _ _ ?_ _ _ h
  refine ⟨start_below hp habs, fun _ => Nat.zero_le _, fun t => ?_, fun _ _ => Nat.zero_le _, startQueue_ok, fun m hm => ?_⟩
  · simp only [start]
    split_ifs with ht
    · exact hw.act t ht
    · exact Nat.zero_le _
  · obtain ⟨m', e, -, t, ht, hlt⟩ := mem_startQueue.1 hm
    cases e
    exact ⟨t, ht, by simp [start, hlt]⟩

end

end Verif.Pgb
