import Verif.SatEncoder

/-! # C34, C35: cardinality constraints for the SAT solver -/

namespace Verif.Props

open Verif.Sat

/-- C34: the clauses for "at most one" can be satisfied by a choice of the new variables iff at most
one of the literals is true; the new variables are those between the old and the new counter.
`bits` is the result of the floating point computation of the number of bits, which is assumed not
to be too small. -/
theorem C34_atMostOne (bits : Nat → Nat) (n : Nat) (is : List Int) (h : LitsOK n is)
    (hb : is.length ≤ 2 ^ bits is.length) (v : Assignment) :
    ((∃ w : Assignment, (∀ i, i ≤ n → w i = v i) ∧ satAll w (atMostOne bits n is).2) ↔ is.countP (lit v) ≤ 1) ∧
    ∀ c ∈ (atMostOne bits n is).2, ∀ l ∈ c, l ≠ 0 ∧ l.natAbs ≤ (atMostOne bits n is).1 := by
  refine ⟨atMostOne_sat h hb v, ?_⟩
  unfold atMostOne
  split_ifs with h1 h2
  · simp
  · intro c hc l hl
    simp only [atMostOneBinomial, List.mem_flatMap, List.mem_range, List.mem_map, List.mem_range'_1] at hc
    obtain ⟨i, hi, j, ⟨hj1, hj2⟩, rfl⟩ := hc
    have hi' := getD_ok h hi
    have hj' := getD_ok h (show j < is.length by omega)
    simp only [impliesNot, List.mem_cons, List.not_mem_nil, or_false] at hl
    rcases hl with rfl | rfl
    · exact ⟨by simpa using hi'.1, by simpa using hi'.2⟩
    · exact ⟨by simpa using hj'.1, by simpa using hj'.2⟩
  · intro c hc l hl
    simp only [List.mem_flatMap, List.mem_range, List.mem_map] at hc
    simp only
    obtain ⟨i, hi, k, hk, rfl⟩ := hc
    have hi' := getD_ok h hi
    simp only [List.mem_cons, List.not_mem_nil, or_false] at hl
    rcases hl with rfl | rfl
    · exact ⟨by simpa using hi'.1, by simp only [Int.natAbs_neg]; omega⟩
    · cases i.testBit k with
      | true => rw [if_pos rfl]; exact ⟨by omega, by omega⟩
      | false => rw [if_neg (by simp)]; exact ⟨by omega, by omega⟩

/-- The exact number of bits meets the assumption of `C34_atMostOne`. -/
example (m : Nat) : m ≤ 2 ^ Nat.clog 2 m := Nat.le_pow_clog (by omega) m

/-- 300 variables: the logarithmic encoding with 9 bits. -/
example : LitsOK 300 ((List.range 300).map fun i : Nat => (i : Int) + 1) ∧
    (atMostOne (Nat.clog 2) 300 ((List.range 300).map fun i : Nat => (i : Int) + 1)).1 = 309 := by
  refine ⟨?_, by decide +kernel⟩
  intro l hl
  rw [List.mem_map] at hl
  obtain ⟨i, hi, rfl⟩ := hl
  rw [List.mem_range] at hi
  omega

/-- C35: the clauses for "at most `K`" can be satisfied by a choice of the new variables iff at most
`K` of the literals are true. -/
theorem C35_atMostK (n K : Nat) (is : List Int) (h : LitsOK n is) (v : Assignment) :
    ((∃ w : Assignment, (∀ i, i ≤ n → w i = v i) ∧ satAll w (atMostK n K is).2) ↔ is.countP (lit v) ≤ K) ∧
    ∀ c ∈ (atMostK n K is).2, ∀ l ∈ c, l ≠ 0 ∧ l.natAbs ≤ (atMostK n K is).1 := by
  refine ⟨atMostK_sat h v, ?_⟩
  have hmono : ∀ i, i ≤ is.length → kBase n K i ≤ kBase n K is.length := fun i hi => by
    unfold kBase
    have := Nat.mul_le_mul_right (((K : Int) + 1).toNat + 1) hi
    omega
  have hpos : ∀ i, n < kBase n K i := fun i => by unfold kBase; omega
  intro c hc l hl
  simp only [atMostK, List.mem_append, List.mem_flatMap, List.mem_range, List.mem_cons, List.not_mem_nil, or_false] at hc ⊢
  have hend := hpos is.length
  rcases hc with ⟨i, hi, ⟨j, hj, rfl | rfl⟩ | rfl⟩ | rfl
  · have hi' := getD_ok h hi
    have m1 := hmono i (by omega)
    have m2 := hmono (i + 1) (by omega)
    have p1 := hpos i
    have p2 := hpos (i + 1)
    simp only [List.mem_cons, List.not_mem_nil, or_false] at hl
    rcases hl with rfl | rfl | rfl
    · exact ⟨by simpa using hi'.1, by simp only [Int.natAbs_neg]; omega⟩
    · exact ⟨by omega, by omega⟩
    · exact ⟨by omega, by omega⟩
  · have m1 := hmono i (by omega)
    have m2 := hmono (i + 1) (by omega)
    have p1 := hpos i
    have p2 := hpos (i + 1)
    simp only [List.mem_cons, List.not_mem_nil, or_false] at hl
    rcases hl with rfl | rfl
    · exact ⟨by omega, by omega⟩
    · exact ⟨by omega, by omega⟩
  · have m2 := hmono (i + 1) (by omega)
    have p2 := hpos (i + 1)
    simp only [List.mem_cons, List.not_mem_nil, or_false] at hl
    subst hl
    exact ⟨by omega, by omega⟩
  · have m1 := hmono 0 (by omega)
    have p1 := hpos 0
    simp only [List.mem_cons, List.not_mem_nil, or_false] at hl
    subst hl
    exact ⟨by omega, by omega⟩

/-- Three literals, one of them negative. -/
example : LitsOK 3 [1, -2, 3] ∧ (atMostK 3 2 [1, -2, 3]).1 = 19 ∧ (atMostK 3 2 [1, -2, 3]).2.length = 22 := by
  refine ⟨?_, by decide, by decide⟩
  intro l hl
  simp at hl
  rcases hl with rfl | rfl | rfl <;> omega

/-- For the bound -1, which no assignment meets, the clauses can always be satisfied. -/
theorem C35_negative_bound_violated (n : Nat) (is : List Int) (v : Assignment) :
    ∃ w : Assignment, (∀ i, i ≤ n → w i = v i) ∧ satAll w (atMostK n (-1) is).2 := by
  refine ⟨fun m => if m ≤ n then v m else decide (m = n + 1), fun i hi => by simp [hi], ?_⟩
  intro c hc
  simp only [atMostK, List.mem_append, List.mem_flatMap, List.mem_range, List.mem_cons, List.not_mem_nil, or_false] at hc
  rcases hc with ⟨i, hi, ⟨j, hj, -⟩ | rfl⟩ | rfl
  · simp at hj
  · refine ⟨_, List.mem_singleton.2 rfl, ?_⟩
    have hk : kBase n (-1) (i + 1) = n + 1 + (i + 1) := by simp [kBase]
    have e : (kBase n (-1) (i + 1) : Int) + -1 + 1 = (kBase n (-1) (i + 1) : Int) := by omega
    rw [e, lit_neg (by rw [hk]; omega), lit_pos (by rw [hk]; omega), hk, if_neg (by omega)]
    simp
  · refine ⟨_, List.mem_singleton.2 rfl, ?_⟩
    rw [lit_pos (by simp [kBase])]
    simp [kBase]

end Verif.Props
