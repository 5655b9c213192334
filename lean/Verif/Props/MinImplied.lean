import Verif.MinImplied

/-!
# Properties of the minimal implied costs and distances (C15, C16)
-/

namespace Verif.Props

open Verif.Htn Verif.MinImplied

/-- C15: at any time during the computation (after any number `k` of iterations), the stored
values of a task do not exceed the cost and the size of any complete decomposition of it. -/
theorem C15_lower_bounds {P : Problem} {na B k : Nat} (hp : ∀ t, P.prim t = decide (t < na))
    (habs : ∀ m < P.numMethods, P.prim (P.head m) = false) {s : Vals} {q : List Item}
    (h : iter B P k (start P na, startQueue P na) = some (s, q)) (t : Nat) (tr : Tree)
    (hv : Valid P t tr) : s.tc t ≤ Tree.costs P tr ∧ s.td t ≤ Tree.size P tr :=
  (iter_lower hp habs h).tree tr t hv

/-- C16 (partial: only if every method has a complete decomposition; the full statement is
"the computation ends for every model", see `C16_violated`): the computation ends, without an
integer overflow, if every method has a complete decomposition whose cost and size are at most
`B` (`INT_MAX`). -/
theorem C16_terminates_partial {P : Problem} {na B : Nat} (hp : ∀ t, P.prim t = decide (t < na))
    (habs : ∀ m < P.numMethods, P.prim (P.head m) = false) (hB : Productive B P) :
    ∃ k s, iter B P k (start P na, startQueue P na) = some (s, []) := by
  refine iter_terminates habs hB _ _ _ _ (Nat.le_refl _) (Nat.le_refl _) (start_lower hp habs)
    (start_below hp habs) fun i hi => ?_
  obtain ⟨m, rfl, hm, -⟩ := mem_startQueue.1 hi
  exact hm

/-- The task 1 has a single method, with the subtasks 0 (an action) and 1. -/
def selfP : Problem where
  numFacts := 0
  prim t := decide (t < 1)
  prec _ := []
  add _ := []
  del _ := []
  cost _ := 1
  numMethods := 1
  head _ := 1
  sub _ := [0, 1]
  ord _ := [(0, 1)]
  init := 1
  s0 := []
  goal := []

theorem selfP_with : methodsWith selfP 1 = [0] := by decide

theorem selfP_of : methodsOf selfP 1 = [0] := by decide

theorem selfP_queue : startQueue selfP 1 = [.meth 0] := by decide

theorem selfP_wf : selfP.WF where
  ord_lt := by
    intro m _ i j h
    have h : (i, j) ∈ [(0, 1)] := h
    simp only [List.mem_singleton, Prod.mk.injEq] at h
    obtain ⟨rfl, rfl⟩ := h
    exact ⟨by show 0 < 2; decide, by show 1 < 2; decide⟩
  ord_acyclic := by
    intro m _
    refine ⟨fun i => i, fun i j h => ?_⟩
    have h : (i, j) ∈ [(0, 1)] := h
    simp only [List.mem_singleton, Prod.mk.injEq] at h
    obtain ⟨rfl, rfl⟩ := h
    decide
  sub_ne := by intro m _; simp [selfP]
  head_abs := by intro m _; rfl
  init_abs := rfl
  prec_lt := by intro a f h; simp [selfP] at h
  add_lt := by intro a f h; simp [selfP] at h
  del_lt := by intro a f h; simp [selfP] at h
  s0_lt := by intro f h; simp [selfP] at h
  goal_lt := by intro f h; simp [selfP] at h

theorem selfP_runs (B : Nat) : ∀ (k : Nat) (s : Vals),
    s.td 0 = 1 → ((s.td 1 = s.md 0 ∧ ∀ s', iter B selfP k (s, [.meth 0]) ≠ some (s', [])) ∨
      s.td 1 ≠ s.md 0) ∧
    (s.td 1 < s.md 0 → s.md 0 ≤ B → ∀ s', iter B selfP k (s, [.task 1]) ≠ some (s', [])) := by
  intro k
  induction k with
  | zero =>
    intro s _
    refine ⟨?_, fun _ _ s' h => by simp [iter] at h⟩
    by_cases e : s.td 1 = s.md 0
    · exact Or.inl ⟨e, fun s' h => by simp [iter] at h⟩
    · exact Or.inr e
  | succ k ih =>
    intro s h0
    constructor
    · by_cases e : s.td 1 = s.md 0
      · refine Or.inl ⟨e, fun s' h => ?_⟩
        rw [iter] at h
        cases hw : work B selfP s (.meth 0) with
        | none => rw [hw] at h; simp at h
        | some r =>
          obtain ⟨s1, new⟩ := r
          rw [hw] at h
          simp only [work, Option.bind_eq_bind, Option.bind_eq_some_iff] at hw
          obtain ⟨c, hc, d, hd, e'⟩ := hw
          simp only [Option.some.injEq, Prod.mk.injEq] at e'
          obtain ⟨rfl, rfl⟩ := e'
          have hB : d ≤ B := by
            have hd' : addUp B s.td [0, 1] 1 = some d := hd
            simp only [addUp] at hd'
            split_ifs at hd' with a1 a2
            simp only [Option.some.injEq] at hd'
            omega
          have hd : d = 1 + ([0, 1].map s.td).sum := addUp_some hd
          simp only [List.map_cons, List.map_nil, List.sum_cons, List.sum_nil, h0] at hd
          have hch : c ≠ s.mc 0 ∨ d ≠ s.md 0 := Or.inr (by omega)
          rw [if_pos hch] at h
          refine ((ih { s with mc := Function.update s.mc 0 c, md := Function.update s.md 0 d }
            h0).2 ?_ ?_) s' h
          · show s.td 1 < Function.update s.md 0 d 0
            rw [Function.update_self]; omega
          · show Function.update s.md 0 d 0 ≤ B
            rw [Function.update_self]; exact hB
      · exact Or.inr e
    · intro hlt hle s' h
      rw [iter] at h
      simp only [work, selfP_of, selfP_with] at h
      have hmin : minOver B s.md [0] = s.md 0 := min_eq_left hle
      have hch : minOver B s.mc [0] ≠ s.tc 1 ∨ minOver B s.md [0] ≠ s.td 1 := Or.inr (by omega)
      rw [if_pos hch] at h
      rcases (ih { s with tc := Function.update s.tc 1 (minOver B s.mc [0]),
                          td := Function.update s.td 1 (minOver B s.md [0]) } (by simpa using h0)).1 with
        ⟨-, hh⟩ | hh
      · exact hh s' h
      · apply hh
        show Function.update s.td 1 (minOver B s.md [0]) 1 = s.md 0
        rw [Function.update_self, hmin]

/-- C16 is violated: for a well-formed model with a task that has only a recursive method, the
computation never ends, whatever the number of iterations `k` and the largest integer `B`: it
either still runs or has overflown. -/
theorem C16_violated : selfP.WF ∧ ∀ B k s, iter B selfP k (start selfP 1, startQueue selfP 1) ≠ some (s, []) := by
  refine ⟨selfP_wf, fun B k s => ?_⟩
  rw [selfP_queue]
  rcases (selfP_runs B k (start selfP 1) rfl).1 with ⟨-, h⟩ | h
  · exact h s
  · exact absurd rfl h

/-- Two tasks (1 and 2): 1 is decomposed into (0, 2) or (0, 1); 2 into (0, 0). -/
def prodP : Problem where
  numFacts := 0
  prim t := decide (t < 1)
  prec _ := []
  add _ := []
  del _ := []
  cost _ := 3
  numMethods := 3
  head m := if m = 2 then 2 else 1
  sub m := if m = 0 then [0, 2] else if m = 1 then [0, 1] else [0, 0]
  ord _ := []
  init := 1
  s0 := []
  goal := []

/-- The tree of task 2. -/
def prodT2 : Tree := .node 2 fun _ => .leaf 0

/-- A tree of task 1. -/
def prodT1 : Tree := .node 0 fun i => if i = 0 then .leaf 0 else prodT2

theorem prodT2_valid : Valid prodP 2 prodT2 := by
  refine Valid.node (P := prodP) (m := 2) (by decide) fun i t h => ?_
  have h : [0, 0][i]? = some t := h
  rcases i with _ | _ | i <;> simp at h
  all_goals (subst h; exact Valid.leaf rfl)

theorem prodT1_valid : Valid prodP 1 prodT1 := by
  refine Valid.node (P := prodP) (m := 0) (by decide) fun i t h => ?_
  have h : [0, 2][i]? = some t := h
  rcases i with _ | _ | i <;> simp at h
  · subst h; exact Valid.leaf rfl
  · subst h; exact prodT2_valid

theorem prodT3_valid : Valid prodP 1 (.node 1 fun i => if i = 0 then .leaf 0 else prodT1) := by
  refine Valid.node (P := prodP) (m := 1) (by decide) fun i t h => ?_
  have h : [0, 1][i]? = some t := h
  rcases i with _ | _ | i <;> simp at h
  · subst h; exact Valid.leaf rfl
  · subst h; exact prodT1_valid

/-- The hypotheses of `C16_terminates_partial` hold for a model with a recursive method. -/
example : Productive 2147483647 prodP := by
  intro m hm
  have hm : m < 3 := hm
  rcases (by omega : m = 0 ∨ m = 1 ∨ m = 2) with rfl | rfl | rfl
  · exact ⟨_, prodT1_valid, by decide, by decide⟩
  · exact ⟨_, prodT3_valid, by decide, by decide⟩
  · exact ⟨_, prodT2_valid, by decide, by decide⟩

/-- The computation on this model: the values are the true minima. -/
example : ((iter 2147483647 prodP 40 (start prodP 1, startQueue prodP 1)).map fun r =>
    (r.1.tc 1, r.1.td 1, r.1.tc 2, r.1.td 2, r.2)) = some (9, 5, 6, 3, []) := by decide +kernel

end Verif.Props
