import Verif.AddFF
import Verif.Props.Relaxed

/-!
# Properties of the additive and the FF heuristic (C18, C44, C45, C46)

`U` is `UNREACHABLE` (`INT_MAX`), `cap` the capacity of the stack used in `getFF`, `rb0` the initial content of
the array `reachedBy`.
-/

namespace Verif.Props

open Verif.Strips

/-- The value for a model, with the constants of the code. -/
def addFFVal (M : Strips) (ff : Bool) (s g : List Nat) : Option AFOut :=
  addFF M heap 2147483647 ff M.numFacts (fun _ => none) 100 s g

example : addFFVal relM true [0] [4] = some (.val 9) := by decide +kernel
example : addFFVal relM false [0] [4] = some (.val 11) := by decide +kernel
example : addFFVal relM true [0] [4, 5] = some .unreachable := by decide +kernel
example : addFFVal relM false [0] [4, 5] = some .unreachable := by decide +kernel

/-- C18 for FF (partial: the outcome may be a write behind the end of the stack, see `C46_stack_violated`): the
computation ends, and it returns `UNREACHABLE` iff some goal fact is relaxed unreachable. -/
theorem C18_ff_partial (pq : PQ) {M : Strips} {U : Nat} {s g : List Nat} (hM : M.WF)
    (htot : M.total M.cost < U) (hs : s.Nodup) (hg : g.Nodup) (cap : Nat) (rb0 : Nat → Option Nat) :
    ∃ F, ∀ fuel, F ≤ fuel → ∃ r, addFF M pq U true cap rb0 fuel s g = some r ∧ r ≠ .overflow ∧
      (r = .unreachable ↔ ∃ f ∈ g, ¬ Reach M (· ∈ s) f) := by
  by_cases hgn : g = []
  · subst hgn
    exact ⟨0, fun fuel _ => ⟨.val 0, rfl, by simp, by simp⟩⟩
  · obtain ⟨F, h⟩ := ff_spec (pq := pq) hM htot hs hgn hg cap rb0
    refine ⟨F, fun fuel hf => ?_⟩
    obtain ⟨r, e, h1 | h1 | h1⟩ := h fuel hf
    · exact ⟨r, e, by rw [h1.1]; simp, fun _ => h1.2, fun _ => h1.1⟩
    · obtain ⟨rfl, h2, -⟩ := h1
      exact ⟨_, e, by simp, by simp, fun ⟨f, h3, h4⟩ => absurd (h2 f h3) h4⟩
    · obtain ⟨π, rfl, -, t, h3, h4⟩ := h1
      refine ⟨_, e, by simp, by simp, fun ⟨f, h5, h6⟩ => absurd ?_ h6⟩
      exact h3.reach (fun _ h => .init h) f (h4 f h5)

/-- C18 for the additive heuristic (partial: an operator value may overflow, which gives `INT_MAX - 2`, and
values that reach `INT_MAX` are excluded by assumption, see `C18_saturation_violated`): if the additive values
of the reachable goal facts sum up to less than `INT_MAX`, then `UNREACHABLE` is returned only if some goal
fact is relaxed unreachable; and in that case, the result is `UNREACHABLE` or the overflow value. -/
theorem C18_add_partial (pq : PQ) {M : Strips} {U : Nat} {s g : List Nat} (hM : M.WF) (hU : 0 < U)
    (hs : s.Nodup) (hg : g.Nodup) (cap : Nat) (rb0 : Nat → Option Nat)
    (hsmall : (∀ f ∈ g, Reach M (· ∈ s) f) →
      ∃ v : Nat → Nat, (∀ f ∈ g, VLe M false (· ∈ s) f (v f)) ∧ (g.map v).sum < U) :
    ∃ F r, (∀ fuel, F ≤ fuel → addFF M pq U false cap rb0 fuel s g = some r) ∧ r ≠ .ub ∧
      (r = .unreachable → ∃ f ∈ g, ¬ Reach M (· ∈ s) f) ∧
      ((∃ f ∈ g, ¬ Reach M (· ∈ s) f) → r = .unreachable ∨ r = .overflow) := by
  by_cases hgn : g = []
  · subst hgn
    exact ⟨0, .val 0, fun fuel _ => rfl, by simp, by simp, by simp⟩
  · obtain ⟨F, r, e, h1 | ⟨h1, f, hf, hno⟩ | ⟨v, hv, h1⟩⟩ := add_spec (pq := pq) hM hU hs hgn hg cap rb0
    · exact ⟨F, r, e, by rw [h1]; simp, by rw [h1]; simp, fun _ => .inr h1⟩
    · refine ⟨F, r, e, by rw [h1]; simp, fun _ => ?_, fun _ => .inl h1⟩
      by_contra hc
      obtain ⟨w, h2, h3⟩ := hsmall fun f hf => by by_contra h; exact hc ⟨f, hf, h⟩
      refine hno (w f) ?_ (h2 f hf)
      have := List.single_le_sum (l := g.map w) (by simp) (w f) (List.mem_map.2 ⟨f, hf, rfl⟩)
      omega
    · have hr : ∀ f ∈ g, Reach M (· ∈ s) f := fun f hf => ((hv f hf _).2 (Nat.le_refl _)).reach
      obtain ⟨w, h2, h3⟩ := hsmall hr
      have hle : (g.map v).sum ≤ (g.map w).sum :=
        List.sum_le_sum fun f hf => (hv f hf _).1 (h2 f hf)
      rw [if_neg (by omega), if_neg (by omega)] at h1
      exact ⟨F, r, e, by rw [h1]; simp, by rw [h1]; simp, fun ⟨f, h4, h5⟩ => absurd (hr f h4) h5⟩

/-- The hypotheses hold for the example. -/
example : ∃ F, ∀ fuel, F ≤ fuel → ∃ r, addFF relM heap 2147483647 true 6 (fun _ => none) fuel [0] [4] = some r ∧
    r ≠ .overflow ∧ (r = .unreachable ↔ ∃ f ∈ [4], ¬ Reach relM (· ∈ [0]) f) :=
  C18_ff_partial heap relM_wf relM_total (by decide) (by decide) _ _

theorem relM_vle : VLe relM false (· ∈ [0]) 4 11 := by
  refine .op (o := 4) (fun p => if p = 1 then 2 else 5) (by decide) (by decide) (fun p hp => ?_) (by decide)
  have hp : p ∈ [1, 3] := hp
  have h1 : VLe relM false (· ∈ [0]) 1 2 := by
    refine .op (o := 0) (fun _ => 0) (by decide) (by decide) (fun p hp => ?_) (by decide)
    exact .init hp
  have h3 : VLe relM false (· ∈ [0]) 3 5 := by
    refine .op (o := 2) (fun _ => 2) (by decide) (by decide) (fun p hp => ?_) (by decide)
    have hp : p ∈ [1] := hp
    rw [List.mem_singleton.1 hp]
    exact h1
  rcases List.mem_cons.1 hp with rfl | hp
  · exact h1
  · rw [List.mem_singleton.1 hp]; exact h3

example : ∃ F r, (∀ fuel, F ≤ fuel → addFF relM heap 2147483647 false 6 (fun _ => none) fuel [0] [4] = some r) ∧
    r ≠ .ub ∧ (r = .unreachable → ∃ f ∈ [4], ¬ Reach relM (· ∈ [0]) f) ∧
    ((∃ f ∈ [4], ¬ Reach relM (· ∈ [0]) f) → r = .unreachable ∨ r = .overflow) :=
  C18_add_partial heap relM_wf (by decide) (by decide) (by decide) _ _ fun _ =>
    ⟨fun _ => 11, fun f hf => by rw [List.mem_singleton.1 hf]; exact relM_vle, by decide⟩

/-- One action with cost `INT_MAX`. -/
def satM : Strips where
  numFacts := 2
  numOps := 1
  prec _ := [0]
  add _ := [1]
  cost _ := 2147483647

/-- The full statement of C18 is false: if a value reaches `INT_MAX`, then a reachable goal is reported as
unreachable, by both heuristics. -/
theorem C18_saturation_violated : SolvesRel satM [0] [1] [0] ∧
    addFFVal satM true [0] [1] = some .unreachable ∧ addFFVal satM false [0] [1] = some .unreachable := by
  refine ⟨⟨_, .cons (by decide) (fun p hp => ?_) .nil, fun f hf => ?_⟩, by decide +kernel, by decide +kernel⟩
  · exact hp
  · right; exact hf

/-- C44: if FF returns a value, then it is the cost of a relaxed plan that reaches the goal and uses no action
twice; the case that all actions have cost one, in which the code counts the actions, is included. -/
theorem C44_ff_is_relaxed_plan (pq : PQ) {M : Strips} {U : Nat} {s g : List Nat} (hM : M.WF)
    (htot : M.total M.cost < U) (hs : s.Nodup) (hg : g.Nodup) (cap : Nat) (rb0 : Nat → Option Nat) :
    ∃ F, ∀ fuel, F ≤ fuel → ∀ n, addFF M pq U true cap rb0 fuel s g = some (.val n) →
      ∃ π, n = costOf M.cost π ∧ π.Nodup ∧ SolvesRel M s g π := by
  by_cases hgn : g = []
  · subst hgn
    refine ⟨0, fun fuel _ n h => ⟨[], ?_, List.nodup_nil, _, .nil, by simp⟩⟩
    simp only [addFF, List.isEmpty_nil, if_true, Option.some.injEq, AFOut.val.injEq] at h
    rw [← h]; rfl
  · obtain ⟨F, h⟩ := ff_spec (pq := pq) hM htot hs hgn hg cap rb0
    refine ⟨F, fun fuel hf n hn => ?_⟩
    obtain ⟨r, e, h1 | h1 | h1⟩ := h fuel hf
    · rw [e, h1.1] at hn; simp at hn
    · rw [e, h1.1] at hn; simp at hn
    · obtain ⟨π, rfl, h3, h4⟩ := h1
      rw [e] at hn
      exact ⟨π, (AFOut.val.inj (Option.some.inj hn)).symm, h3, h4⟩

/-- C45: if the additive heuristic returns a value, then it is the sum over the goal facts of their additive
values (the least `k` with `VLe`). -/
theorem C45_add_exact (pq : PQ) {M : Strips} {U : Nat} {s g : List Nat} (hM : M.WF) (hU : 0 < U)
    (hs : s.Nodup) (hg : g.Nodup) (cap : Nat) (rb0 : Nat → Option Nat) :
    ∃ F, ∀ fuel, F ≤ fuel → ∀ n, addFF M pq U false cap rb0 fuel s g = some (.val n) →
      ∃ v : Nat → Nat, (∀ f ∈ g, ∀ k, VLe M false (· ∈ s) f k ↔ v f ≤ k) ∧ n = (g.map v).sum := by
  by_cases hgn : g = []
  · subst hgn
    refine ⟨0, fun fuel _ n h => ⟨fun _ => 0, by simp, ?_⟩⟩
    simp only [addFF, List.isEmpty_nil, if_true, Option.some.injEq, AFOut.val.injEq] at h
    rw [← h]; rfl
  · obtain ⟨F, r, e, h1 | ⟨h1, -⟩ | ⟨v, hv, h1⟩⟩ := add_spec (pq := pq) hM hU hs hgn hg cap rb0
    · refine ⟨F, fun fuel hf n hn => ?_⟩
      rw [e fuel hf, h1] at hn; simp at hn
    · refine ⟨F, fun fuel hf n hn => ?_⟩
      rw [e fuel hf, h1] at hn; simp at hn
    · refine ⟨F, fun fuel hf n hn => ⟨v, hv, ?_⟩⟩
      rw [e fuel hf, h1] at hn
      have hn := Option.some.inj hn
      split_ifs at hn
      exact (AFOut.val.inj hn).symm

/-- C46 (partial: for a stack that is large enough; the code uses the capacity `numStateBits`, which is not, see
`C46_stack_violated`): the extraction of the relaxed plan stays within the stack if the capacity is at
least `1 + numFacts * (1 + P)`, where `P` is the largest number of preconditions. -/
theorem C46_stack_partial (pq : PQ) {M : Strips} {U P : Nat} {s g : List Nat} (hM : M.WF)
    (htot : M.total M.cost < U) (hs : s.Nodup) (hsl : ∀ f ∈ s, f < M.numFacts) (hg : g.Nodup) {cap : Nat}
    (hP : ∀ o < M.numOps, (M.prec o).length ≤ P) (hcap : 1 + M.numFacts * (1 + P) ≤ cap)
    (rb0 : Nat → Option Nat) :
    ∃ F, ∀ fuel, F ≤ fuel → ∃ r, addFF M pq U true cap rb0 fuel s g = some r ∧ r ≠ .ub := by
  by_cases hgn : g = []
  · subst hgn
    exact ⟨0, fun fuel _ => ⟨.val 0, rfl, by simp⟩⟩
  · obtain ⟨F, h⟩ := ff_spec (pq := pq) hM htot hs hgn hg cap rb0
    refine ⟨F, fun fuel hf => ?_⟩
    obtain ⟨r, e, h1 | ⟨h1, -, ord, rb, hj, hnd, hlt⟩ | h1⟩ := h fuel hf
    · exact ⟨r, e, by rw [h1.1]; simp⟩
    · have hle : ffWork M rb ord [] ≤ M.numFacts * (1 + P) := by
        have hlen : ord.length ≤ M.numFacts := by
          have hsub : ord ⊆ List.range M.numFacts := fun f hf => by
            rcases hj.mem f hf with ⟨h, -⟩ | ⟨o, ho, -, ha, -⟩
            · exact List.mem_range.2 (hsl f h)
            · exact List.mem_range.2 (hM.add_lt o ho f ha)
          have := (hnd.subperm hsub).length_le
          simpa using this
        have hsum : ∀ l : List Nat, (∀ f ∈ l, f ∈ ord) → (l.map fun f => 1 + pushes M rb f).sum ≤ l.length * (1 + P) := by
          intro l
          induction l with
          | nil => simp
          | cons a l ih =>
            intro hl
            have h1 := ih fun f hf => hl f (List.mem_cons_of_mem _ hf)
            have h2 : pushes M rb a ≤ P := by
              unfold pushes
              rcases hj.mem a (hl a List.mem_cons_self) with ⟨-, h⟩ | ⟨o, ho, h, -⟩
              · rw [h]; exact Nat.zero_le _
              · rw [h]; exact hP o ho
            simp only [List.map_cons, List.sum_cons, List.length_cons, Nat.add_mul, Nat.one_mul] at h1 ⊢
            omega
        have := hsum (ord.filter (· ∉ [])) fun f hf => List.mem_of_mem_filter hf
        unfold ffWork
        refine this.trans (Nat.mul_le_mul_right _ ((List.length_filter_le _ _).trans hlen))
      omega
    · obtain ⟨π, rfl, -⟩ := h1
      exact ⟨_, e, by simp⟩

example : ∃ F, ∀ fuel, F ≤ fuel → ∃ r, addFF relM heap 2147483647 true 19 (fun _ => none) fuel [0] [4] = some r ∧
    r ≠ .ub := by
  refine C46_stack_partial heap (P := 2) relM_wf relM_total (by decide) (fun f hf => ?_) (by decide) (fun o ho => ?_)
    (by decide) _
  · rw [List.mem_singleton.1 hf]; decide
  · have : ∀ o < 5, (relM.prec o).length ≤ 2 := by decide
    exact this o ho

/-- Action `i` needs the facts `0, ..., i` and adds `i + 1`. -/
def denseM : Strips where
  numFacts := 6
  numOps := 5
  prec o := List.range (o + 1)
  add o := [o + 1]
  cost _ := 1

theorem denseM_wf : denseM.WF where
  prec_lt := by
    intro o ho p hp
    have h1 : o < 5 := ho
    have h2 : p < o + 1 := List.mem_range.1 hp
    show p < 6
    omega
  add_lt := by
    intro o ho p hp
    have h1 : o < 5 := ho
    have h2 : p = o + 1 := List.mem_singleton.1 hp
    show p < 6
    omega
  prec_nodup := fun o _ => List.nodup_range
  prec_ne := fun o _ h => by
    have : (List.range (o + 1)).length = 0 := congrArg List.length h
    simp at this

/-- The full statement of C46 is false: with the capacity `numStateBits` of the code, the stack overflows on a model
that meets all assumptions. -/
theorem C46_stack_violated : denseM.WF ∧ denseM.total denseM.cost < 2147483647 ∧
    addFFVal denseM true [0] [5] = some .ub :=
  ⟨denseM_wf, by decide +kernel, by decide +kernel⟩

end Verif.Props
