import Mathlib.Data.List.Basic
import Mathlib.Data.List.Pairwise
import Mathlib.Data.Nat.Bits
import Mathlib.Data.Nat.Log
import Mathlib.Tactic.SplitIfs
import Mathlib.Algebra.Order.Ring.Int

/-! # Model of the cardinality encodings (src/sat/sat_encoder.cpp)

Literals are integers as in the IPASIR interface: `v` for a variable, `-v` for its negation.  The
model collects the clauses that are given to the solver.  The statistics counter
`number_of_clauses` is not modelled.  The state of `sat_capsule` is the number of variables. -/

namespace Verif.Sat

abbrev Clause := List Int
abbrev Assignment := Nat → Bool

/-- Truth of a literal. -/
def lit (v : Assignment) (l : Int) : Bool := if 0 < l then v l.natAbs else !v l.natAbs

def satClause (v : Assignment) (c : Clause) : Prop := ∃ l ∈ c, lit v l = true

def satAll (v : Assignment) (cs : List Clause) : Prop := ∀ c ∈ cs, satClause v c

theorem lit_neg {v : Assignment} {l : Int} (h : l ≠ 0) : lit v (-l) = !lit v l := by
  unfold lit
  rw [Int.natAbs_neg]
  split_ifs <;> simp <;> omega

theorem satAll_append {v : Assignment} {a b : List Clause} : satAll v (a ++ b) ↔ satAll v a ∧ satAll v b := by
  simp [satAll, or_imp, forall_and]

/-- `impliesNot` (src/sat/sat_encoder.cpp 105-111). -/
def impliesNot (i j : Int) : Clause := [-i, -j]

/-- `atMostOneBinomial` (src/sat/sat_encoder.cpp 171-178). -/
def atMostOneBinomial (is : List Int) : List Clause :=
  (List.range is.length).flatMap fun i =>
    (List.range' (i + 1) (is.length - (i + 1))).map fun j => impliesNot (is[i]?.getD 0) (is[j]?.getD 0)

/-- `atMostOne` (src/sat/sat_encoder.cpp 181-217) with `n` variables in use: the new number of
variables and the clauses.  `bits` stands for the floating point computation
`(int) ceil(log(is.size()) / log(2))`. -/
def atMostOne (bits : Nat → Nat) (n : Nat) (is : List Int) : Nat × List Clause :=
  if is.length ≤ 1 then (n, [])
  else if is.length < 256 then (n, atMostOneBinomial is)
  else
    let b := bits is.length
    let base := n + 1
    (base + (b - 1), (List.range is.length).flatMap fun i => (List.range b).map fun k =>
      [-(is[i]?.getD 0), if i.testBit k then -((base + k : Nat) : Int) else ((base + k : Nat) : Int)])

/-- `vars[x]` in `atMostK` (src/sat/sat_encoder.cpp 221-240): every position gets `K + 2` variables
(one if `K` is negative). -/
def kBase (n : Nat) (K : Int) (x : Nat) : Nat := n + 1 + x * ((K + 1).toNat + 1)

/-- `atMostK` (src/sat/sat_encoder.cpp 220-260). -/
def atMostK (n : Nat) (K : Int) (is : List Int) : Nat × List Clause :=
  (kBase n K is.length + (K + 1).toNat,
   ((List.range is.length).flatMap fun i =>
    ((List.range (K + 1).toNat).flatMap fun j : Nat =>
      [[-(is[i]?.getD 0), -((kBase n K i : Int) + (j : Int)), (kBase n K (i + 1) : Int) + (j : Int) + 1],
       [-((kBase n K i : Int) + (j : Int)), (kBase n K (i + 1) : Int) + (j : Int)]]) ++
    [[-((kBase n K (i + 1) : Int) + K + 1)]]) ++ [[(kBase n K 0 : Int)]])

/-- The literals are over the first `n` variables. -/
def LitsOK (n : Nat) (is : List Int) : Prop := ∀ l ∈ is, l ≠ 0 ∧ l.natAbs ≤ n

theorem lit_agree {n : Nat} {v w : Assignment} (h : ∀ i, i ≤ n → w i = v i) {l : Int} (hl : l.natAbs ≤ n) :
    lit w l = lit v l := by
  unfold lit; rw [h _ hl]

theorem countP_le_one {α : Type} {p : α → Bool} {l : List α} :
    l.countP p ≤ 1 ↔ l.Pairwise fun a b => ¬ (p a = true ∧ p b = true) := by
  induction l with
  | nil => simp
  | cons a l ih =>
    rw [List.pairwise_cons, ← ih, List.countP_cons]
    by_cases ha : p a = true
    · simp only [ha, if_true, true_and]
      constructor
      · intro h
        have h0 : l.countP p = 0 := by omega
        exact ⟨fun b hb => by simpa using List.countP_eq_zero.1 h0 b hb, by omega⟩
      · rintro ⟨h1, -⟩
        have : l.countP p = 0 := List.countP_eq_zero.2 fun b hb => by simpa using h1 b hb
        omega
    · simp [ha]

theorem pair_iff {α : Type} {p : α → Bool} {l : List α} {d : α} :
    (l.Pairwise fun a b => ¬ (p a = true ∧ p b = true)) ↔
    ∀ i j, i < j → j < l.length → ¬ (p (l[i]?.getD d) = true ∧ p (l[j]?.getD d) = true) := by
  rw [List.pairwise_iff_getElem]
  constructor
  · intro h i j hij hj
    have := h i j (by omega) hj hij
    simpa [List.getElem?_eq_getElem hj, List.getElem?_eq_getElem (show i < l.length by omega)] using this
  · intro h i j hi hj hij
    simpa [List.getElem?_eq_getElem hj, List.getElem?_eq_getElem hi] using h i j hij hj

theorem getD_ok {n : Nat} {is : List Int} (h : LitsOK n is) {i : Nat} (hi : i < is.length) :
    is[i]?.getD 0 ≠ 0 ∧ (is[i]?.getD 0).natAbs ≤ n := by
  rw [List.getElem?_eq_getElem hi]
  exact h _ (List.getElem_mem hi)

theorem binomial_sat {n : Nat} {is : List Int} (h : LitsOK n is) (v : Assignment) :
    satAll v (atMostOneBinomial is) ↔ is.countP (lit v) ≤ 1 := by
  rw [countP_le_one, pair_iff (d := (0 : Int))]
  simp only [satAll, atMostOneBinomial, List.mem_flatMap, List.mem_range, List.mem_map, List.mem_range'_1]
  constructor
  · intro hs i j hij hj
    obtain ⟨l, hl, hl'⟩ := hs _ ⟨i, by omega, j, ⟨by omega, by omega⟩, rfl⟩
    have hi' := (getD_ok h (show i < is.length by omega)).1
    have hj' := (getD_ok h hj).1
    simp only [impliesNot, List.mem_cons, List.not_mem_nil, or_false] at hl
    rcases hl with rfl | rfl
    · rw [lit_neg hi'] at hl'; rintro ⟨a, -⟩; rw [a] at hl'; simp at hl'
    · rw [lit_neg hj'] at hl'; rintro ⟨-, a⟩; rw [a] at hl'; simp at hl'
  · rintro hs c ⟨i, hi, j, ⟨h1, h2⟩, rfl⟩
    have hi' := (getD_ok h hi).1
    have hj' := (getD_ok h (show j < is.length by omega)).1
    have := hs i j (by omega) (by omega)
    by_cases ha : lit v (is[i]?.getD 0) = true
    · refine ⟨-(is[j]?.getD 0), by simp [impliesNot], ?_⟩
      rw [lit_neg hj']
      cases hb : lit v (is[j]?.getD 0) with
      | false => rfl
      | true => exact absurd ⟨ha, hb⟩ this
    · exact ⟨-(is[i]?.getD 0), by simp [impliesNot], by rw [lit_neg hi']; simpa using ha⟩

theorem lit_pos {v : Assignment} {m : Nat} (h : 0 < m) : lit v (m : Int) = v m := by
  unfold lit; rw [if_pos (by omega)]; simp

theorem log_sat {n b : Nat} {is : List Int} (h : LitsOK n is) (hb : is.length ≤ 2 ^ b) (v : Assignment) :
    (∃ w : Assignment, (∀ i, i ≤ n → w i = v i) ∧ satAll w ((List.range is.length).flatMap fun i => (List.range b).map fun k =>
      [-(is[i]?.getD 0), if i.testBit k then -((n + 1 + k : Nat) : Int) else ((n + 1 + k : Nat) : Int)])) ↔
    is.countP (lit v) ≤ 1 := by
  rw [countP_le_one, pair_iff (d := (0 : Int))]
  -- the constraint says that the auxiliary variables contain the complement of the index
  have main : ∀ w : Assignment, (satAll w ((List.range is.length).flatMap fun i => (List.range b).map fun k =>
      [-(is[i]?.getD 0), if i.testBit k then -((n + 1 + k : Nat) : Int) else ((n + 1 + k : Nat) : Int)])) ↔
      ∀ i, i < is.length → lit w (is[i]?.getD 0) = true → ∀ k, k < b → w (n + 1 + k) = !i.testBit k := by
    intro w
    simp only [satAll, List.mem_flatMap, List.mem_range, List.mem_map]
    constructor
    · intro hs i hi ht k hk
      obtain ⟨l, hl, hl'⟩ := hs _ ⟨i, hi, k, hk, rfl⟩
      simp only [List.mem_cons, List.not_mem_nil, or_false] at hl
      rcases hl with rfl | rfl
      · rw [lit_neg (getD_ok h hi).1, ht] at hl'; simp at hl'
      · cases htb : i.testBit k with
        | true =>
          rw [htb, if_pos rfl, lit_neg (by omega), lit_pos (by omega)] at hl'
          simpa using hl'
        | false =>
          rw [htb, if_neg (by simp), lit_pos (by omega)] at hl'
          simpa using hl'
    · rintro hs c ⟨i, hi, k, hk, rfl⟩
      by_cases ht : lit w (is[i]?.getD 0) = true
      · have := hs i hi ht k hk
        refine ⟨_, by simp only [List.mem_cons, List.not_mem_nil, or_false]; exact .inr rfl, ?_⟩
        cases htb : i.testBit k with
        | true => rw [if_pos rfl, lit_neg (by omega), lit_pos (by omega), this, htb]; rfl
        | false => rw [if_neg (by simp), lit_pos (by omega), this, htb]; rfl
      · exact ⟨-(is[i]?.getD 0), by simp, by rw [lit_neg (getD_ok h hi).1]; simpa using ht⟩
  constructor
  · rintro ⟨w, hw, hs⟩ i j hij hj ⟨hti, htj⟩
    rw [main] at hs
    rw [← lit_agree hw (getD_ok h (by omega)).2] at hti
    rw [← lit_agree hw (getD_ok h hj).2] at htj
    have : i = j := by
      apply Nat.eq_of_testBit_eq
      intro k
      by_cases hk : k < b
      · have h1 := hs i (by omega) hti k hk
        have h2 := hs j hj htj k hk
        rw [h1] at h2
        simpa using h2
      · have hp : 2 ^ b ≤ 2 ^ k := Nat.pow_le_pow_right (by omega) (by omega)
        rw [Nat.testBit_lt_two_pow (by omega), Nat.testBit_lt_two_pow (by omega)]
    omega
  · intro hs
    by_cases hex : ∃ i, i < is.length ∧ lit v (is[i]?.getD 0) = true
    · obtain ⟨i, hi, hti⟩ := hex
      refine ⟨fun m => if m ≤ n then v m else !i.testBit (m - (n + 1)), fun m hm => by simp [hm], ?_⟩
      rw [main]
      intro j hj htj k hk
      have hij : i = j := by
        rw [lit_agree (v := v) (n := n) (fun m hm => by simp [hm]) (getD_ok h hj).2] at htj
        rcases Nat.lt_trichotomy i j with hl | he | hg
        · exact absurd ⟨hti, htj⟩ (hs i j hl hj)
        · exact he
        · exact absurd ⟨htj, hti⟩ (hs j i hg hi)
      subst hij
      rw [if_neg (by omega), show n + 1 + k - (n + 1) = k by omega]
    · refine ⟨v, fun _ _ => rfl, ?_⟩
      rw [main]
      intro j hj htj
      exact absurd ⟨j, hj, htj⟩ hex

theorem atMostOne_sat {bits : Nat → Nat} {n : Nat} {is : List Int} (h : LitsOK n is)
    (hb : is.length ≤ 2 ^ bits is.length) (v : Assignment) :
    (∃ w : Assignment, (∀ i, i ≤ n → w i = v i) ∧ satAll w (atMostOne bits n is).2) ↔ is.countP (lit v) ≤ 1 := by
  unfold atMostOne
  split_ifs with h1 h2
  · have : is.countP (lit v) ≤ is.length := List.countP_le_length
    exact ⟨fun _ => by omega, fun _ => ⟨v, fun _ _ => rfl, by simp [satAll]⟩⟩
  · rw [← binomial_sat h v]
    constructor
    · rintro ⟨w, hw, hs⟩
      rw [binomial_sat h w] at hs
      rw [binomial_sat h v]
      have : is.countP (lit w) = is.countP (lit v) :=
        List.countP_congr fun l hl => by rw [lit_agree hw (h l hl).2]
      omega
    · intro hs; exact ⟨v, fun _ _ => rfl, hs⟩
  · exact log_sat h hb v

/-- Number of true literals among the first `i`. -/
def cnt (v : Assignment) (is : List Int) (i : Nat) : Nat := (is.take i).countP (lit v)

theorem cnt_succ {v : Assignment} {is : List Int} {i : Nat} (hi : i < is.length) :
    cnt v is (i + 1) = cnt v is i + if lit v (is[i]?.getD 0) = true then 1 else 0 := by
  unfold cnt
  rw [List.take_succ_eq_append_getElem hi, List.countP_append, List.getElem?_eq_getElem hi]
  simp [List.countP_singleton]

/-- Meaning of the clauses of `atMostK`. -/
theorem atMostK_meaning {n : Nat} {K : Nat} {is : List Int} (h : LitsOK n is) (w : Assignment) :
    satAll w (atMostK n K is).2 ↔
    (∀ i, i < is.length →
      (∀ j, j ≤ K → w (kBase n K i + j) = true →
        (lit w (is[i]?.getD 0) = true → w (kBase n K (i + 1) + (j + 1)) = true) ∧ w (kBase n K (i + 1) + j) = true) ∧
      w (kBase n K (i + 1) + (K + 1)) = false) ∧ w (kBase n K 0) = true := by
  have hpos : ∀ i, 0 < kBase n K i := fun i => by unfold kBase; omega
  have hK : ((K : Int) + 1).toNat = K + 1 := by omega
  have l1 : ∀ i j : Nat, lit w ((kBase n K i : Int) + j) = w (kBase n K i + j) := fun i j => by
    rw [← Nat.cast_add, lit_pos (by have := hpos i; omega)]
  have l1' : ∀ i j : Nat, lit w ((kBase n K i : Int) + j + 1) = w (kBase n K i + (j + 1)) := fun i j => by
    have := l1 i (j + 1)
    rw [← this]; congr 1
  have l2 : ∀ i j : Nat, lit w (-((kBase n K i : Int) + j)) = !w (kBase n K i + j) := fun i j => by
    rw [lit_neg (by have := hpos i; omega), l1]
  have l2' : ∀ i j : Nat, lit w (-((kBase n K i : Int) + j + 1)) = !w (kBase n K i + (j + 1)) := fun i j => by
    rw [lit_neg (by have := hpos i; omega), l1']
  have l0 : lit w (kBase n K 0 : Int) = w (kBase n K 0) := lit_pos (hpos 0)
  simp only [atMostK, satAll_append]
  refine and_congr ?_ ?_
  · simp only [satAll, List.mem_flatMap, List.mem_range, List.mem_append, List.mem_cons, List.not_mem_nil, or_false, hK]
    constructor
    · intro hs i hi
      refine ⟨fun j hj hj' => ⟨fun ht => ?_, ?_⟩, ?_⟩
      · obtain ⟨l, hl, hl'⟩ := hs _ ⟨i, hi, .inl ⟨j, by omega, .inl rfl⟩⟩
        simp only [List.mem_cons, List.not_mem_nil, or_false] at hl
        rcases hl with rfl | rfl | rfl
        · rw [lit_neg (getD_ok h hi).1, ht] at hl'; simp at hl'
        · rw [l2, hj'] at hl'; simp at hl'
        · rw [l1'] at hl'; exact hl'
      · obtain ⟨l, hl, hl'⟩ := hs _ ⟨i, hi, .inl ⟨j, by omega, .inr rfl⟩⟩
        simp only [List.mem_cons, List.not_mem_nil, or_false] at hl
        rcases hl with rfl | rfl
        · rw [l2, hj'] at hl'; simp at hl'
        · rw [l1] at hl'; exact hl'
      · obtain ⟨l, hl, hl'⟩ := hs _ ⟨i, hi, .inr rfl⟩
        simp only [List.mem_cons, List.not_mem_nil, or_false] at hl
        subst hl
        rw [l2'] at hl'; simpa using hl'
    · rintro hs c ⟨i, hi, ⟨j, hj, rfl | rfl⟩ | rfl⟩
      · by_cases ht : lit w (is[i]?.getD 0) = true
        · by_cases hj' : w (kBase n K i + j) = true
          · exact ⟨(kBase n K (i + 1) : Int) + j + 1, by simp, by rw [l1']; exact ((hs i hi).1 j (by omega) hj').1 ht⟩
          · exact ⟨-((kBase n K i : Int) + j), by simp, by rw [l2]; simpa using hj'⟩
        · exact ⟨-(is[i]?.getD 0), by simp, by rw [lit_neg (getD_ok h hi).1]; simpa using ht⟩
      · by_cases hj' : w (kBase n K i + j) = true
        · exact ⟨(kBase n K (i + 1) : Int) + j, by simp, by rw [l1]; exact ((hs i hi).1 j (by omega) hj').2⟩
        · exact ⟨-((kBase n K i : Int) + j), by simp, by rw [l2]; simpa using hj'⟩
      · exact ⟨-((kBase n K (i + 1) : Int) + K + 1), by simp, by rw [l2', (hs i hi).2]; rfl⟩
  · simp [satAll, satClause, l0]

theorem atMostK_sat {n K : Nat} {is : List Int} (h : LitsOK n is) (v : Assignment) :
    (∃ w : Assignment, (∀ i, i ≤ n → w i = v i) ∧ satAll w (atMostK n K is).2) ↔ is.countP (lit v) ≤ K := by
  constructor
  · rintro ⟨w, hw, hs⟩
    rw [atMostK_meaning h] at hs
    obtain ⟨hs, h0⟩ := hs
    have hc : is.countP (lit w) = is.countP (lit v) :=
      List.countP_congr fun l hl => by rw [lit_agree hw (h l hl).2]
    rw [← hc]
    -- the counter variables are true at least up to the number of true literals
    have key : ∀ i, i ≤ is.length → cnt w is i ≤ K ∧ ∀ j, j ≤ cnt w is i → w (kBase n K i + j) = true := by
      intro i
      induction i with
      | zero => intro _; simp [cnt, h0]
      | succ i ih =>
        intro hi
        obtain ⟨i1, i2⟩ := ih (by omega)
        obtain ⟨s1, s2⟩ := hs i (by omega)
        have hall : ∀ j, j ≤ cnt w is (i + 1) → w (kBase n K (i + 1) + j) = true := by
          intro j hj
          rw [cnt_succ (by omega)] at hj
          by_cases hle : j ≤ cnt w is i
          · exact (s1 j (by omega) (i2 j hle)).2
          · split_ifs at hj with ht
            · have hj' : j = cnt w is i + 1 := by omega
              rw [hj']
              exact (s1 _ i1 (i2 _ (Nat.le_refl _))).1 ht
            · omega
        refine ⟨?_, hall⟩
        by_contra hn
        have := hall (K + 1) (by omega)
        rw [s2] at this
        simp at this
    have := (key is.length (Nat.le_refl _)).1
    simpa [cnt] using this
  · intro hle
    let w : Assignment := fun m => if m ≤ n then v m else
      decide ((m - (n + 1)) % (K + 2) ≤ cnt v is ((m - (n + 1)) / (K + 2)))
    have hw : ∀ i, i ≤ n → w i = v i := fun i hi => by simp [w, hi]
    have hwk : ∀ i j, j ≤ K + 1 → w (kBase n K i + j) = decide (j ≤ cnt v is i) := by
      intro i j hj
      have hk : kBase n K i = n + 1 + i * (K + 2) := by
        unfold kBase
        rw [show ((K : Int) + 1).toNat = K + 1 by omega]
      have e1 : kBase n K i + j - (n + 1) = (K + 2) * i + j := by
        rw [hk, Nat.mul_comm]; omega
      simp only [w]
      rw [if_neg (by rw [hk]; omega), e1, Nat.mul_add_mod, Nat.mod_eq_of_lt (by omega),
        Nat.mul_add_div (by omega), Nat.div_eq_of_lt (by omega), Nat.add_zero]
    have hcnt : ∀ i, cnt v is i ≤ K := fun i => by
      refine le_trans ?_ hle
      exact (List.take_sublist i is).countP_le
    refine ⟨w, hw, ?_⟩
    rw [atMostK_meaning h]
    refine ⟨fun i hi => ⟨fun j hj hj' => ?_, ?_⟩, ?_⟩
    · rw [hwk i j (by omega), decide_eq_true_eq] at hj'
      rw [hwk _ _ (by omega), hwk _ _ (by omega), decide_eq_true_eq, decide_eq_true_eq, cnt_succ hi,
        lit_agree hw (getD_ok h hi).2]
      refine ⟨fun ht => ?_, ?_⟩
      · rw [if_pos ht]; omega
      · omega
    · rw [hwk _ _ (by omega), decide_eq_false_iff_not]
      have := hcnt (i + 1)
      omega
    · have := hwk 0 0 (by omega)
      simpa using this

end Verif.Sat
