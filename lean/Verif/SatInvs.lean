import Verif.SatLoop

/-! # The binary clauses given to the SAT planner (src/SearchEngine.cpp 465-466) -/

namespace Verif.Pdt

open Verif.Htn Verif.Sat Verif.Inv

/-- `extract_invariants_from_parsed_model` followed by `compute_Rintanen_Invariants` (SearchEngine.cpp 465-466,
Invariants.cpp 507-509); `none`: undefined behaviour or out of fuel. -/
def globalInvs (P : Problem) (nA : Nat) (G : Inv.Given) (ord : List Int → List Int) (f1 f2 : Nat) : Option BinInv :=
  match extract P.numFacts G ord f1 with
  | .done B =>
    match rintanen P nA f2 with
    | none => none
    | some r => insertAll P.numFacts r B
  | _ => none

section
variable {N : Nat}

theorem insertInv_in {B B' : BinInv} {a b : Int} (h : insertInv N B a b = some B') (hB : BinIn N B) : BinIn N B' := by
  have hr : inRange N a = true ∧ inRange N b = true := by
    unfold insertInv at h
    split_ifs at h with h1
    simpa using h1
  intro c d hd
  rcases (insertInv_mem h c d).1 hd with h | ⟨rfl, rfl⟩ | ⟨rfl, rfl⟩
  · exact hB c d h
  · exact hr
  · exact hr.symm

theorem insertAll_in : ∀ (ps : List (Int × Int)) {B B' : BinInv}, insertAll N ps B = some B' → BinIn N B → BinIn N B' := by
  intro ps
  induction ps with
  | nil => intro B B' h hB; cases h; exact hB
  | cons p ps ih =>
    intro B B' h hB
    obtain ⟨a, b⟩ := p
    simp only [insertAll, Option.bind_eq_some_iff] at h
    obtain ⟨B1, h1, h2⟩ := h
    exact ih h2 (insertInv_in h1 hB)

theorem resolve_in {other cur : Int} : ∀ (js : List Int) {st st' : RS}, resolve N other cur js st = some st' →
    BinIn N st.1 → BinIn N st'.1 := by
  intro js
  induction js with
  | nil => intro st st' h hB; cases h; exact hB
  | cons j js ih =>
    intro st st' h hB
    unfold resolve at h
    split_ifs at h with h1 h2 h3
    · exact ih h hB
    · exact ih h hB
    · rw [Option.bind_eq_some_iff] at h
      obtain ⟨B, h1, h⟩ := h
      exact ih h (insertInv_in h1 hB)

theorem sasAll_in : ∀ (ps : List (Int × (Nat × Nat))) {st st' : RS}, sasAll N ps st = some st' → BinIn N st.1 → BinIn N st'.1 := by
  intro ps
  induction ps with
  | nil => intro st st' h hB; cases h; exact hB
  | cons p ps ih =>
    intro st st' h hB
    simp only [sasAll, Option.bind_eq_some_iff] at h
    obtain ⟨st1, h1, h2⟩ := h
    refine ih h2 ?_
    unfold sasOne at h1
    simp only at h1
    split_ifs at h1
    · cases h1; exact hB
    · cases h1; exact hB
    · rw [Option.bind_eq_some_iff] at h1
      obtain ⟨B, h1, h⟩ := h1
      cases h
      exact insertInv_in h1 hB
    · cases h1; exact hB

theorem resLoop_in {G : Inv.Given} {ord : List Int → List Int} : ∀ (k : Nat) {st : RS} {B : BinInv},
    resLoop N G ord k st = .done B → BinIn N st.1 → BinIn N B := by
  intro k
  induction k with
  | zero => intro st B h; cases h
  | succ k ih =>
    rintro ⟨B0, q⟩ B h ho
    cases q with
    | cons inv q =>
      unfold resLoop at h
      cases hst : resStep N ord inv (B0, q) with
      | none => rw [hst] at h; cases h
      | some st =>
        rw [hst] at h
        refine ih h ?_
        simp only [resStep, Option.bind_eq_some_iff] at hst
        obtain ⟨st1, h1, h2⟩ := hst
        exact resolve_in _ h2 (resolve_in _ h1 ho)
    | nil =>
      unfold resLoop at h
      cases hst : sasAll N (sasPairs N G) (B0, []) with
      | none => rw [hst] at h; cases h
      | some st =>
        have ho' := sasAll_in _ hst ho
        obtain ⟨B', q'⟩ := st
        rw [hst] at h
        cases q' with
        | nil => cases h; exact ho'
        | cons i q' => exact ih h ho'

theorem extract_in {G : Inv.Given} {ord : List Int → List Int} {fuel : Nat} {B : BinInv}
    (h : extract N G ord fuel = .done B) : BinIn N B := by
  unfold extract at h
  cases hB : insertAll N (initialPairs G) (fun _ => []) with
  | none => rw [hB] at h; cases h
  | some B0 =>
    rw [hB] at h
    have h0 : BinIn N B0 := insertAll_in _ hB (fun a b hb => by simp at hb)
    simp only at h
    split_ifs at h with h1
    · cases h; exact h0
    · exact resLoop_in fuel h h0

end

/-- The clauses of both computations hold in all states that actions without contradictory effects can reach, if what the
parser delivered holds there. -/
theorem globalInvs_ok {P : Problem} {nA : Nat} {G : Inv.Given}
    {ord : List Int → List Int} (hord : ∀ l, (ord l).Perm l) {f1 f2 : Nat} {B : BinInv}
    (h : globalInvs P nA G ord f1 f2 = some B) : BinIn P.numFacts B ∧ ∀ π s, (∀ a ∈ π, a < nA) → (∀ a ∈ π, NoClash P a) → Exec P P.initState π s →
      G.Ok s → AllHold s B := by
  unfold globalInvs at h
  cases he : extract P.numFacts G ord f1 with
  | ub => rw [he] at h; simp at h
  | outOfFuel => rw [he] at h; simp at h
  | done B0 =>
    rw [he] at h
    simp only at h
    cases hr : rintanen P nA f2 with
    | none => rw [hr] at h; simp at h
    | some r =>
      rw [hr] at h
      simp only at h
      refine ⟨insertAll_in _ h (extract_in he), fun π s hπ hna hex hG => ?_⟩
      exact insertAll_allHold _ h (extract_ok hord hG he) (rintanen_hold hr hπ hna (rintanen_init hr).1 hex)

end Verif.Pdt
