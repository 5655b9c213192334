import Verif.LmCut

/-!
# Properties of the h-max and the LM-cut heuristic (C19, C20, C42, C43)

`U` is `UNREACHABLE` (`INT_MAX`).  The assumption `total < U` says that the sum of all action costs is
smaller than that, so that no sum of costs overflows.
-/

namespace Verif.Props

open Verif.Strips

/-- A queue: the actual binary heap. -/
abbrev heap : PQ := heapPQ 7

/-- A small model: fact 0 leads via 1 or 2 to 3; 4 needs 1 and 3; 5 has no producer. -/
def relM : Strips where
  numFacts := 6
  numOps := 5
  prec o := [[0], [0], [1], [2], [1, 3]].getD o []
  add o := [[1], [2], [3], [3], [4, 3]].getD o []
  cost o := [2, 1, 3, 5, 4].getD o 0

theorem relM_wf : relM.WF where
  prec_lt := by
    intro o ho
    have : ∀ o < 5, ∀ p ∈ relM.prec o, p < 6 := by decide
    exact this o ho
  add_lt := by
    intro o ho
    have : ∀ o < 5, ∀ p ∈ relM.add o, p < 6 := by decide
    exact this o ho
  prec_nodup := by
    intro o ho
    have : ∀ o < 5, (relM.prec o).Nodup := by decide
    exact this o ho
  prec_ne := by
    intro o ho
    have : ∀ o < 5, relM.prec o ≠ [] := by decide
    exact this o ho

theorem relM_total : relM.total relM.cost < 2147483647 := by decide +kernel

/-- The values of all facts. -/
def hmaxVals (M : Strips) (s g : List Nat) : Option (Nat × List Nat) :=
  (getHMax M heap 2147483647 M.cost 100 s g).bind fun r =>
    r.2.map fun x => (r.1, (List.range M.numFacts).map x.2.hVal)

example : hmaxVals relM [0] [4] = some (9, [0, 2, 1, 5, 9, 2147483647]) := by decide +kernel
example : hmaxVals relM [0] [4, 5] = some (2147483647, [0, 2, 1, 5, 9, 2147483647]) := by decide +kernel
example : lmCut relM heap 2147483647 100 [0] [4] = some (9, [[4], [2, 3], [0]]) := by decide +kernel
example : lmCut relM heap 2147483647 100 [0] [4, 5] = some (2147483647, []) := by decide +kernel

/-! ## h-max -/

/-- C19: for every model, cost function, state and goal, the computation ends and returns
`UNREACHABLE` iff some goal fact is relaxed unreachable.  Otherwise the returned value is the h-max value
of the goal, that is the least bound of the h-max values of the goal facts, and it does not exceed the cost
of any relaxed plan. -/
theorem C19_hmax (pq : PQ) {M : Strips} {U : Nat} {c : Nat → Nat} {s g : List Nat} (hM : M.WF)
    (htot : M.total c < U) (hs : s.Nodup) :
    ∃ F res x, (∀ fuel, F ≤ fuel → getHMax M pq U c fuel s g = some (res, x)) ∧
      (res = U ↔ ∃ f ∈ g, ¬ Reach M (· ∈ s) f) ∧
      ((∀ f ∈ g, Reach M (· ∈ s) f) →
        (∀ f ∈ g, HLe M c (· ∈ s) f res) ∧ (∀ k, (∀ f ∈ g, HLe M c (· ∈ s) f k) → res ≤ k) ∧
        ∀ π, SolvesRel M s g π → res ≤ costOf c π) := by
  by_cases hg : g = []
  · subst hg
    refine ⟨0, 0, none, fun fuel _ => rfl, ?_, fun _ => ⟨by simp, by simp, fun π _ => Nat.zero_le _⟩⟩
    constructor
    · intro h; omega
    · rintro ⟨f, hf, -⟩; simp at hf
  · obtain ⟨F, res, G, st, e, H, k1, k2⟩ := getHMax_spec (pq := pq) hM htot hs hg
    refine ⟨F, res, _, e, ⟨fun h => ?_, k1⟩, fun hr => ?_⟩
    · by_contra hc
      have hr : ∀ f ∈ g, Reach M (· ∈ s) f := fun f hf => by by_contra h; exact hc ⟨f, hf, h⟩
      obtain ⟨x, -, -, -, h2, -⟩ := k2 hr
      omega
    · obtain ⟨x, -, hx, e2, -, hmax⟩ := k2 hr
      have h1 : ∀ k, (∀ f ∈ g, HLe M c (· ∈ s) f k) → res ≤ k := fun k hk => by
        rw [e2]; exact H.least x k (hk x hx)
      refine ⟨fun f hf => ((H.le f (hr f hf)).1).mono (hmax f hf), h1, fun π hπ => ?_⟩
      obtain ⟨t, h2, h3⟩ := hπ
      refine h1 _ fun f hf => ?_
      have := h2.hle (c := c) (k := 0) (s := (· ∈ s)) (fun f hf => .init hf) f (h3 f hf)
      simpa using this

/-- C19: after the exploration, the value of every fact is its h-max value, and `UNREACHABLE` iff the fact is
relaxed unreachable; no value exceeds the sum of all action costs. -/
theorem C19_facts (pq : PQ) {M : Strips} {U : Nat} {c : Nat → Nat} {s g : List Nat} (hM : M.WF)
    (htot : M.total c < U) (hs : s.Nodup) (hg : g ≠ []) :
    ∃ F res G st, (∀ fuel, F ≤ fuel → getHMax M pq U c fuel s g = some (res, some (G, st))) ∧ ∀ f,
      (st.hVal f = U ↔ ¬ Reach M (· ∈ s) f) ∧
      (Reach M (· ∈ s) f → st.hVal f ≤ M.total c ∧ ∀ k, HLe M c (· ∈ s) f k ↔ st.hVal f ≤ k) := by
  obtain ⟨F, res, G, st, e, H, -⟩ := getHMax_spec (pq := pq) hM htot hs hg
  exact ⟨F, res, G, st, e, fun f => ⟨H.unr f, fun hr => ⟨(H.le f hr).2, fun k =>
    ⟨H.least f k, fun hk => (H.le f hr).1.mono hk⟩⟩⟩⟩

/-- The hypotheses hold for the example, with the binary heap as queue. -/
example : ∃ F res x, (∀ fuel, F ≤ fuel → getHMax relM heap 2147483647 relM.cost fuel [0] [4] = some (res, x)) ∧
    (res = 2147483647 ↔ ∃ f ∈ [4], ¬ Reach relM (· ∈ [0]) f) ∧
    ((∀ f ∈ [4], Reach relM (· ∈ [0]) f) →
      (∀ f ∈ [4], HLe relM relM.cost (· ∈ [0]) f res) ∧
      (∀ k, (∀ f ∈ [4], HLe relM relM.cost (· ∈ [0]) f k) → res ≤ k) ∧
      ∀ π, SolvesRel relM [0] [4] π → res ≤ costOf relM.cost π) :=
  C19_hmax heap relM_wf relM_total (by decide)

/-- Fact 0 is true and also added by an action without preconditions, with costs 3; fact 1 is reached from
fact 0 at cost 1. -/
def plM : Strips where
  numFacts := 2
  numOps := 2
  prec o := [[], [0]].getD o []
  add o := [[0], [1]].getD o []
  cost o := [3, 1].getD o 0

/-- Without the assumption that every action has a precondition, h-max is not a lower bound: the value of a
state fact is overwritten by the cost of an action without preconditions.  The relaxed plan (action 1) has
costs 1, the value is 4. -/
theorem C19_precless_violated :
    hmaxVals plM [0] [1] = some (4, [3, 4]) ∧ SolvesRel plM [0] [1] [1] ∧ costOf plM.cost [1] = 1 := by
  refine ⟨by decide +kernel, ⟨_, .cons (by decide) (fun p hp => ?_) .nil, fun f hf => ?_⟩, by decide⟩
  · have : p ∈ [0] := hp
    simpa using this
  · right; exact hf

/-- A precondition that is listed twice. -/
def dupM : Strips where
  numFacts := 2
  numOps := 1
  prec _ := [0, 0]
  add _ := [1]
  cost _ := 1

/-- Without the assumption that no precondition is listed twice, a reachable goal is reported as unreachable:
the counter of open preconditions starts at two and is decreased once. -/
theorem C19_duplicate_violated :
    hmaxVals dupM [0] [1] = some (2147483647, [0, 2147483647]) ∧ SolvesRel dupM [0] [1] [0] := by
  refine ⟨by decide +kernel, ⟨_, .cons (by decide) (fun p hp => ?_) .nil, fun f hf => ?_⟩⟩
  · have : p ∈ [0, 0] := hp
    simpa using this
  · right; exact hf

/-! ## LM-cut -/

/-- C20: for every model, state and goal, the computation ends (without an access out of bounds) and the value
is `UNREACHABLE` iff some goal fact is relaxed unreachable; otherwise it does not exceed the cost of any
relaxed plan. -/
theorem C20_lmcut_admissible (pq : PQ) {M : Strips} {U : Nat} {s g : List Nat} (hM : M.WF)
    (htot : M.total M.cost < U) (hs : s.Nodup) :
    ∃ F h cuts, (∀ fuel, F ≤ fuel → lmCut M pq U fuel s g = some (h, cuts)) ∧
      (h = U ↔ ∃ f ∈ g, ¬ Reach M (· ∈ s) f) ∧
      ∀ π, SolvesRel M s g π → h ≤ costOf M.cost π := by
  by_cases hg : g = []
  · subst hg
    refine ⟨0, 0, [], fun fuel _ => rfl, ?_, fun π _ => Nat.zero_le _⟩
    constructor
    · intro h; omega
    · rintro ⟨f, hf, -⟩; simp at hf
  · obtain ⟨F, h, cuts, hMax, x, e, k1, k2⟩ := lmCut_spec (pq := pq) hM htot hs hg
    have hadm : ∀ π, SolvesRel M s g π → h ≤ costOf M.cost π := fun π hπ => by
      obtain ⟨t, h1, h2⟩ := hπ
      obtain ⟨⟨c', hI⟩, -⟩ := k2 (reach_iff.2 ⟨π, t, h1, h2⟩)
      have := hI.adm π ⟨t, h1, h2⟩
      omega
    refine ⟨F, h, cuts, fun fuel hf => (e fuel hf).1, ⟨fun hU => ?_, fun hr => (k1 hr).1⟩, hadm⟩
    by_contra hc
    have hr : ∀ f ∈ g, Reach M (· ∈ s) f := fun f hf => by by_contra h; exact hc ⟨f, hf, h⟩
    obtain ⟨π, t, h1, h2, h3⟩ := relPlan_bound hr M.cost
    have := hadm π ⟨t, h1, h2⟩
    omega

example : ∃ F h cuts, (∀ fuel, F ≤ fuel → lmCut relM heap 2147483647 fuel [0] [4] = some (h, cuts)) ∧
    (h = 2147483647 ↔ ∃ f ∈ [4], ¬ Reach relM (· ∈ [0]) f) ∧
    ∀ π, SolvesRel relM [0] [4] π → h ≤ costOf relM.cost π :=
  C20_lmcut_admissible heap relM_wf relM_total (by decide)

/-- C42: the LM-cut value is never smaller than the h-max value. -/
theorem C42_lmcut_dominates_hmax (pq : PQ) {M : Strips} {U : Nat} {s g : List Nat} (hM : M.WF)
    (htot : M.total M.cost < U) (hs : s.Nodup) :
    ∃ F h cuts hMax x, (∀ fuel, F ≤ fuel → lmCut M pq U fuel s g = some (h, cuts) ∧
      getHMax M pq U M.cost fuel s g = some (hMax, x)) ∧ hMax ≤ h := by
  by_cases hg : g = []
  · subst hg
    exact ⟨0, 0, [], 0, none, fun fuel _ => ⟨rfl, rfl⟩, Nat.le_refl _⟩
  · obtain ⟨F, h, cuts, hMax, x, e, k1, k2⟩ := lmCut_spec (pq := pq) hM htot hs hg
    refine ⟨F, h, cuts, hMax, x, e, ?_⟩
    by_cases hr : ∀ f ∈ g, Reach M (· ∈ s) f
    · exact (k2 hr).2.1
    · have : ∃ f ∈ g, ¬ Reach M (· ∈ s) f := by
        by_contra hc
        exact hr fun f hf => by by_contra h; exact hc ⟨f, hf, h⟩
      obtain ⟨h1, h2, -⟩ := k1 this
      omega

/-- C43: every stored cut is a disjunctive action landmark: each relaxed plan uses an action of it.  The
actions of a cut are pairwise distinct actions of the model.  If the heuristic value is positive (and not
`UNREACHABLE`), then some cut is stored. -/
theorem C43_cuts_are_landmarks (pq : PQ) {M : Strips} {U : Nat} {s g : List Nat} (hM : M.WF)
    (htot : M.total M.cost < U) (hs : s.Nodup) :
    ∃ F h cuts, (∀ fuel, F ≤ fuel → lmCut M pq U fuel s g = some (h, cuts)) ∧
      (∀ cut ∈ cuts, cut.Nodup ∧ (∀ o ∈ cut, o < M.numOps) ∧ ∀ π, SolvesRel M s g π → ∃ o ∈ cut, o ∈ π) ∧
      (cuts = [] → h = 0 ∨ h = U) ∧ cuts.length ≤ h := by
  by_cases hg : g = []
  · subst hg
    exact ⟨0, 0, [], fun fuel _ => rfl, by simp, by simp, by simp⟩
  · obtain ⟨F, h, cuts, hMax, x, e, k1, k2⟩ := lmCut_spec (pq := pq) hM htot hs hg
    refine ⟨F, h, cuts, fun fuel hf => (e fuel hf).1, ?_⟩
    by_cases hr : ∀ f ∈ g, Reach M (· ∈ s) f
    · obtain ⟨⟨c', hI⟩, -, h3, h4⟩ := k2 hr
      exact ⟨hI.lm, fun hc => .inl (h4 hc), h3⟩
    · have : ∃ f ∈ g, ¬ Reach M (· ∈ s) f := by
        by_contra hc
        exact hr fun f hf => by by_contra h; exact hc ⟨f, hf, h⟩
      obtain ⟨h1, -, rfl⟩ := k1 this
      exact ⟨by simp, fun _ => .inr h1, by simp⟩

end Verif.Props
