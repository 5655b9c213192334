import Verif.Rintanen

/-! # C38, C39: binary invariants -/

namespace Verif.Props

open Verif.Inv Verif.Htn

/-- C38 (partial: only for actions that do not add and delete the same fact; see `C38_unsound_violated`): every clause
that the synthesis keeps holds in every state that such actions can reach from the initial state. -/
theorem C38_invariants_hold_partial (P : Problem) (nA fuel : Nat)
    (r : List (Int × Int)) (hr : rintanen P nA fuel = some r) (π : List Nat) (hπ : ∀ a ∈ π, a < nA)
    (hna : ∀ a ∈ π, ∀ f ∈ P.add a, f ∉ P.del a) (s : State)
    (hex : Exec P P.initState π s) : ∀ c ∈ r, holds s c.1 ∨ holds s c.2 :=
  rintanen_hold hr hπ hna (rintanen_init hr).1 hex

/-- C38: the synthesis terminates. -/
theorem C38_terminates (P : Problem) (nA : Nat) : ∃ k r, ∀ fuel ≥ k, rintanen P nA fuel = some r := by
  obtain ⟨r, hr⟩ := rounds_fuel (P := P) (nA := nA) ((initialCands P).length + 1) (initialCands P) none (by omega)
    (live_initial P) (by simp)
  have mono : ∀ (k : Nat) (cs : List Cand) (last : Option Nat) (r : List (Int × Int)), rounds P nA k cs last = some r →
      ∀ k' ≥ k, rounds P nA k' cs last = some r := by
    intro k
    induction k with
    | zero => intro cs last r h; cases h
    | succ k ih =>
      intro cs last r h k' hk
      obtain ⟨k', rfl⟩ : ∃ j, k' = j + 1 := ⟨k' - 1, by omega⟩
      unfold rounds at h ⊢
      simp only at h ⊢
      by_cases hnc : (actionLoop P nA 0 ⟨cs, 0, last⟩).nc = 0
      · rw [if_pos hnc] at h ⊢; exact h
      · rw [if_neg hnc] at h ⊢; exact ih _ _ _ h k' (by omega)
  exact ⟨_, r, fun fuel hf => mono _ _ _ _ hr fuel hf⟩

/-- C38: the clauses are about facts that exist, so that they can be entered into `binary_invariants`; afterwards all
entries hold in every reachable state that satisfies what was known before. -/
theorem C38_insert (P : Problem) (nA fuel : Nat) (r : List (Int × Int))
    (hr : rintanen P nA fuel = some r) (B : BinInv) :
    (∃ B', insertAll P.numFacts r B = some B') ∧ ∀ B', insertAll P.numFacts r B = some B' → ∀ (π : List Nat) (s : State),
      (∀ a ∈ π, a < nA) → (∀ a ∈ π, ∀ f ∈ P.add a, f ∉ P.del a) → Exec P P.initState π s → (∀ a, ∀ b ∈ B a, holds s a ∨ holds s b) →
      ∀ a, ∀ b ∈ B' a, holds s a ∨ holds s b := by
  constructor
  · have h := (rintanen_init hr).2
    clear hr
    induction r generalizing B with
    | nil => exact ⟨B, rfl⟩
    | cons c r ih =>
      obtain ⟨h1, h2⟩ := h c List.mem_cons_self
      obtain ⟨B1, hB1⟩ := insertInv_some (B := B) h1 h2
      obtain ⟨B2, hB2⟩ := ih B1 fun d hd => h d (List.mem_cons_of_mem _ hd)
      refine ⟨B2, ?_⟩
      simp only [insertAll, hB1, Option.bind_some]
      exact hB2
  · intro B' hB' π s hπ hna hex hB
    exact insertAll_allHold r hB' hB (C38_invariants_hold_partial P nA fuel r hr π hπ hna s hex)

/-- Two facts; action 0 makes fact 0 true and fact 1 false, action 1 the other way round. -/
def rinP : Problem where
  numFacts := 2
  prim := fun t => decide (t < 2)
  prec := fun t => if t = 0 then [1] else if t = 1 then [0] else []
  add := fun t => if t = 0 then [0] else if t = 1 then [1] else []
  del := fun t => if t = 0 then [1] else if t = 1 then [0] else []
  cost := fun _ => 1
  numMethods := 1
  head := fun _ => 2
  sub := fun _ => [0]
  ord := fun _ => []
  init := 2
  s0 := [1]
  goal := []

/-- The synthesis finds that exactly one of the two facts holds. -/
example : rintanen rinP 2 10 = some [(0, 1), (-1, -2)] := by decide +kernel

example : ∀ a < 2, ∀ f ∈ rinP.add a, f ∉ rinP.del a := by decide

example : ∃ s, Exec rinP rinP.initState [0, 1] s := by
  refine ⟨_, .cons (fun f hf => ?_) (.cons (fun f hf => ?_) (.nil _))⟩
  · simpa [rinP, Problem.initState] using hf
  · left; simpa [rinP] using hf

/-- One action without preconditions which adds and deletes both facts. -/
def clashP : Problem where
  numFacts := 2
  prim := fun t => decide (t < 1)
  prec := fun _ => []
  add := fun t => if t = 0 then [0, 1] else []
  del := fun t => if t = 0 then [0, 1] else []
  cost := fun _ => 1
  numMethods := 1
  head := fun _ => 1
  sub := fun _ => [0]
  ord := fun _ => []
  init := 1
  s0 := []
  goal := [0, 1]

/-- The full C38 fails if an action adds and deletes the same facts: adds win, but the synthesis takes the deletes as
proof that a fact is false.  The kept clause "not both facts" is false after the action. -/
theorem C38_unsound_violated : ∃ r, rintanen clashP 1 10 = some r ∧ (-1, -2) ∈ r ∧
    Exec clashP clashP.initState [0] (clashP.result clashP.initState 0) ∧
    ¬ (holds (clashP.result clashP.initState 0) (-1) ∨ holds (clashP.result clashP.initState 0) (-2)) := by
  refine ⟨[(0, -2), (-1, 1), (-1, -2)], by decide +kernel, by simp, .cons (fun f hf => by simp [clashP] at hf) (.nil _), ?_⟩
  simp [holds, clashP, Problem.result]

/-- C39: every clause in the result holds in every state that satisfies the given clauses, mutexes and groups, for every
order in which the hash sets are traversed. -/
theorem C39_resolution_sound (N : Nat) (G : Given) (ord : List Int → List Int) (hord : ∀ l, (ord l).Perm l) (fuel : Nat)
    (B : BinInv) (h : extract N G ord fuel = .done B) (s : State) (hs : G.Ok s) :
    ∀ a, ∀ b ∈ B a, holds s a ∨ holds s b := extract_ok hord hs h

/-- C39: literals reported as exclusive are never true together. -/
theorem C39_coOccur (N : Nat) (G : Given) (ord : List Int → List Int) (hord : ∀ l, (ord l).Perm l) (fuel : Nat)
    (B : BinInv) (h : extract N G ord fuel = .done B) (a b : Int) (hc : canCoOccur B a b = false) (s : State) (hs : G.Ok s) :
    ¬ (holds s a ∧ holds s b) := by
  rintro ⟨ha, hb⟩
  unfold canCoOccur at hc
  by_cases hab : a = -b - 1
  · rw [hab] at ha
    exact (holds_neg s b).1 ha hb
  · rw [if_neg hab] at hc
    have hm : (-b - 1) ∈ B (-a - 1) := by simpa using hc
    rcases C39_resolution_sound N G ord hord fuel B h s hs _ _ hm with h1 | h1
    · exact (holds_neg s a).1 h1 ha
    · exact (holds_neg s b).1 h1 hb

/-- C39: resolution terminates. -/
theorem C39_terminates (N : Nat) (G : Given) (ord : List Int → List Int) :
    ∃ k r, r ≠ Res.outOfFuel ∧ ∀ fuel ≥ k, extract N G ord fuel = r := extract_terminates N G ord

/-- C39: if no literal is implied by what the parser delivered, the computation has a defined result. -/
theorem C39_defined (N : Nat) (G : Given) (hG : G.InRange N)
    (hns : ∀ l, inRange N l = true → ∃ s, G.Ok s ∧ ¬ holds s l) (ord : List Int → List Int) (hord : ∀ l, (ord l).Perm l) :
    ∃ k B, ∀ fuel ≥ k, extract N G ord fuel = .done B := by
  obtain ⟨k, r, hr, h⟩ := extract_terminates N G ord
  have hu := extract_noUb hG hns hord k
  rw [h k (Nat.le_refl _)] at hu
  match r, hr, hu, h with
  | .done B, _, _, h => exact ⟨k, B, h⟩

/-- Fact 0 excludes fact 1; facts 1 and 2 are the values of a variable.  It is inferred that fact 0 implies fact 2. -/
def resG : Given := ⟨[[-1, -2]], [], [], [(1, 2)]⟩

example : ∃ B, extract 3 resG id 20 = .done B ∧ (2 : Int) ∈ B (-1) :=
  ⟨_, rfl, by decide +kernel⟩

example : resG.InRange 3 := by
  refine ⟨?_, ?_, ?_, ?_⟩ <;> simp [resG, inRange]

theorem resG_ok {p : Nat → Bool} (h1 : p 0 = false ∨ p 1 = false) (h2 : p 1 = !p 2) : resG.Ok (fun f => p f = true) := by
  refine ⟨?_, by simp [resG], by simp [resG], by simp [resG], ?_, ?_⟩
  · intro c hc
    simp only [resG, List.mem_cons, List.not_mem_nil, or_false] at hc
    subst hc
    rcases h1 with h | h
    · exact ⟨-1, by simp, by simp [holds, h]⟩
    · exact ⟨-2, by simp, by simp [holds, h]⟩
  · intro g hg a b h1 h2' h3
    simp only [resG, List.mem_cons, List.not_mem_nil, or_false] at hg
    subst hg
    obtain rfl : a = 1 := by omega
    obtain rfl : b = 2 := by omega
    rw [h2]
    cases p 2 <;> simp
  · intro g hg _
    simp only [resG, List.mem_cons, List.not_mem_nil, or_false] at hg
    subst hg
    cases h : p 2 with
    | true => exact ⟨2, by omega, by omega, h⟩
    | false => exact ⟨1, by omega, by omega, by rw [h2, h]; rfl⟩

example : ∀ l, inRange 3 l = true → ∃ s, resG.Ok s ∧ ¬ holds s l := by
  intro l hl
  have h1 : resG.Ok (fun f => decide (f = 1) = true) := resG_ok (by simp) (by simp)
  have h2 : resG.Ok (fun f => decide (f = 2) = true) := resG_ok (by simp) (by simp)
  have h3 : resG.Ok (fun f => decide (f = 0 ∨ f = 2) = true) := resG_ok (by simp) (by simp)
  have : l = -3 ∨ l = -2 ∨ l = -1 ∨ l = 0 ∨ l = 1 ∨ l = 2 := by
    simp only [inRange, Bool.and_eq_true, decide_eq_true_eq] at hl
    omega
  rcases this with rfl | rfl | rfl | rfl | rfl | rfl
  · exact ⟨_, h2, by simp [holds]⟩
  · exact ⟨_, h1, by simp [holds]⟩
  · exact ⟨_, h3, by simp [holds]⟩
  · exact ⟨_, h1, by simp [holds]⟩
  · exact ⟨_, h2, by simp [holds]⟩
  · exact ⟨_, h1, by simp [holds]⟩

/-- The assumption of `C39_defined` is needed: if the clauses imply a literal, resolution inserts a clause into the hash set
that it is traversing. -/
theorem C39_insert_while_iterating : extract 3 ⟨[[1, 2], [-2, 2], [0, -3]], [], [], []⟩ id 100 = .ub := by
  have : (match extract 3 ⟨[[1, 2], [-2, 2], [0, -3]], [], [], []⟩ id 100 with | .ub => true | _ => false) = true := by
    decide +kernel
  match h : extract 3 ⟨[[1, 2], [-2, 2], [0, -3]], [], [], []⟩ id 100 with
  | .ub => rfl
  | .done _ => rw [h] at this; cases this
  | .outOfFuel => rw [h] at this; cases this

end Verif.Props
