import Mathlib.Data.List.Basic
import Mathlib.Tactic.SplitIfs

/-! # Bits of sequences of 64-bit words, and `state2Int`

Words are `BitVec 64` (C++: `uint64_t`). -/

namespace Verif.Bits

abbrev W := BitVec 64

/-- Bit `g` of a sequence of words. -/
def gbit (ws : List W) (g : Nat) : Bool := (ws[g / 64]?.getD 0#64).getLsbD (g % 64)

theorem gbit_block (ws : List W) (i q : Nat) (hq : q < 64) :
    gbit ws (64 * i + q) = (ws[i]?.getD 0#64).getLsbD q := by
  have h1 : (64 * i + q) / 64 = i := by omega
  have h2 : (64 * i + q) % 64 = q := by omega
  rw [gbit, h1, h2]

theorem gbit_split (g : Nat) : ∃ i q, q < 64 ∧ g = 64 * i + q := ⟨g / 64, g % 64, Nat.mod_lt _ (by omega), by omega⟩

theorem gbit_out (ws : List W) (g : Nat) (hg : 64 * ws.length ≤ g) : gbit ws g = false := by
  have : ws[g / 64]? = none := List.getElem?_eq_none (by omega)
  simp [gbit, this]

theorem word_ext {x y : W} (h : ∀ q < 64, x.getLsbD q = y.getLsbD q) : x = y :=
  BitVec.eq_of_getLsbD_eq fun q hq => h q hq

/-- A word sequence is determined by its length and its bits. -/
theorem words_ext {ws vs : List W} (hl : ws.length = vs.length) (h : ∀ g, g < 64 * ws.length → gbit ws g = gbit vs g) :
    ws = vs := by
  refine List.ext_getElem? fun i => ?_
  rcases Nat.lt_or_ge i ws.length with hi | hi
  · rw [List.getElem?_eq_getElem hi, List.getElem?_eq_getElem (hl ▸ hi)]
    congr 1
    refine word_ext fun q hq => ?_
    have := h (64 * i + q) (by omega)
    rw [gbit_block _ _ _ hq, gbit_block _ _ _ hq, List.getElem?_eq_getElem hi,
      List.getElem?_eq_getElem (hl ▸ hi)] at this
    simpa using this
  · rw [List.getElem?_eq_none hi, List.getElem?_eq_none (hl ▸ hi)]

/-- The loop of `state2Int` (src/VisitedList.cpp 27-42): (`vec`, `pos`, `cur`). -/
def packLoop : List Bool → List W → Nat → W → List W × Nat × W
  | [], vec, pos, cur => (vec, pos, cur)
  | b :: bs, vec, pos, cur =>
    let cur := if b then cur ||| (1#64 <<< pos) else cur
    if pos + 1 = 64 then packLoop bs (vec ++ [cur]) 0 0#64 else packLoop bs vec (pos + 1) cur

/-- `state2Int` (src/VisitedList.cpp 27-51): words and number of padding bits. -/
def state2Int (bs : List Bool) : List W × Nat :=
  match packLoop bs [] 0 0#64 with
  | (vec, pos, cur) => if pos ≠ 0 then (vec ++ [cur], 64 - pos) else (vec, 0)

theorem getLsbD_shift (pos q : Nat) (hp : pos < 64) : (1#64 <<< pos).getLsbD q = decide (q = pos) := by
  rw [BitVec.getLsbD_shiftLeft]
  by_cases hq : q < 64
  · by_cases h2 : q < pos
    · simp [h2]; omega
    · have : (1#64).getLsbD (q - pos) = decide (q - pos = 0) := by
        rw [BitVec.getLsbD_one]; simp
      rw [this]
      simp [hq, h2]; omega
  · simp [hq]; omega

/-- Invariant of the loop: `done` are the bits read so far. -/
theorem packLoop_spec : ∀ (bs done : List Bool) (vec : List W) (pos : Nat) (cur : W),
    pos < 64 → done.length = 64 * vec.length + pos →
    (∀ g, gbit (vec ++ [cur]) g = done[g]?.getD false) →
    let r := packLoop bs vec pos cur
    r.2.1 < 64 ∧ (done ++ bs).length = 64 * r.1.length + r.2.1 ∧
      ∀ g, gbit (r.1 ++ [r.2.2]) g = (done ++ bs)[g]?.getD false := by
  intro bs
  induction bs with
  | nil => intro done vec pos cur h1 h2 h3; simpa [packLoop] using ⟨h1, h2, h3⟩
  | cons b bs ih =>
    intro done vec pos cur h1 h2 h3
    have hcur : ∀ g, gbit (vec ++ [if b then cur ||| (1#64 <<< pos) else cur]) g = (done ++ [b])[g]?.getD false := by
      intro g
      obtain ⟨i, q, hq, rfl⟩ := gbit_split g
      have hold := h3 (64 * i + q)
      rw [gbit_block _ _ _ hq] at hold ⊢
      rcases Nat.lt_trichotomy i vec.length with hi | hi | hi
      · rw [List.getElem?_append_left hi] at hold ⊢
        rw [hold, List.getElem?_append_left (by omega)]
      · subst hi
        rw [List.getElem?_append_right (Nat.le_refl _), Nat.sub_self, List.getElem?_cons_zero, Option.getD_some] at hold ⊢
        have hb : (if b then cur ||| (1#64 <<< pos) else cur).getLsbD q = (cur.getLsbD q || (b && decide (q = pos))) := by
          cases b
          · simp
          · simp only [if_true, BitVec.getLsbD_or, getLsbD_shift pos q h1, Bool.true_and]
        rw [hb, hold]
        rcases Nat.lt_trichotomy q pos with hqp | hqp | hqp
        · rw [List.getElem?_append_left (by omega)]
          simp; omega
        · subst hqp
          rw [List.getElem?_append_right (by omega), List.getElem?_eq_none (by omega), ← h2]
          simp
        · rw [List.getElem?_eq_none (by omega), List.getElem?_eq_none (by simp; omega)]
          simp; omega
      · rw [List.getElem?_eq_none (by simp; omega), List.getElem?_eq_none (by simp; omega)]
        simp
    have hlist : done ++ b :: bs = (done ++ [b]) ++ bs := by simp
    simp only [packLoop]
    rw [hlist]
    by_cases hp : pos + 1 = 64
    · rw [if_pos hp]
      refine ih (done ++ [b]) _ 0 0#64 (by omega) (by simp; omega) fun g => ?_
      rw [← hcur g]
      obtain ⟨i, q, hq, rfl⟩ := gbit_split g
      rw [gbit_block _ _ _ hq, gbit_block _ _ _ hq]
      rcases Nat.lt_or_ge i (vec.length + 1) with hi | hi
      · rw [List.getElem?_append_left (by simpa using hi)]
      · rw [List.getElem?_append_right (by simpa using hi)]
        rw [List.getElem?_eq_none (l := vec ++ _) (by simpa using hi)]
        cases i - (vec ++ [if b then cur ||| (1#64 <<< pos) else cur]).length <;> simp
    · rw [if_neg hp]
      exact ih (done ++ [b]) _ (pos + 1) _ (by omega) (by simp; omega) hcur

/-- The packed words contain the bits, padded with zeros. -/
theorem state2Int_spec (bs : List Bool) :
    (state2Int bs).2 < 64 ∧ bs.length + (state2Int bs).2 = 64 * (state2Int bs).1.length ∧
      ∀ g, gbit (state2Int bs).1 g = bs[g]?.getD false := by
  have h := packLoop_spec bs [] [] 0 0#64 (by omega) (by simp) (by
    intro g
    obtain ⟨i, q, hq, rfl⟩ := gbit_split g
    rw [gbit_block _ _ _ hq]
    cases i <;> simp)
  simp only [List.nil_append] at h
  unfold state2Int
  generalize packLoop bs [] 0 0#64 = r at h
  obtain ⟨vec, pos, cur⟩ := r
  obtain ⟨h1, h2, h3⟩ := h
  simp only at h1 h2 h3 ⊢
  by_cases hp : pos = 0
  · rw [if_neg (by simp [hp])]
    refine ⟨by simp, by simp; omega, fun g => ?_⟩
    rcases Nat.lt_or_ge g (64 * vec.length) with hg | hg
    · rw [← h3 g]
      obtain ⟨i, q, hq, rfl⟩ := gbit_split g
      rw [gbit_block _ _ _ hq, gbit_block _ _ _ hq, List.getElem?_append_left (by omega)]
    · rw [gbit_out _ _ hg, List.getElem?_eq_none (by omega)]; rfl
  · rw [if_pos (by simpa using hp)]
    exact ⟨by simp; omega, by simp; omega, h3⟩

/-- `state2Int` loses nothing. -/
theorem state2Int_inj {bs cs : List Bool} (h : state2Int bs = state2Int cs) : bs = cs := by
  obtain ⟨-, h2, h3⟩ := state2Int_spec bs
  obtain ⟨-, h2', h3'⟩ := state2Int_spec cs
  rw [h] at h2 h3
  have hl : bs.length = cs.length := by omega
  refine List.ext_getElem? fun g => ?_
  have := (h3 g).symm.trans (h3' g)
  rcases Nat.lt_or_ge g bs.length with hg | hg
  · rw [List.getElem?_eq_getElem hg, List.getElem?_eq_getElem (hl ▸ hg)] at this ⊢
    simpa using this
  · rw [List.getElem?_eq_none hg, List.getElem?_eq_none (hl ▸ hg)]

end Verif.Bits
