import Mathlib.Order.Basic
import Mathlib.Data.List.Pairwise
import Mathlib.Tactic.Set

/-! # Model of `IntUtil::indexOf` / `containsInt` (src/intDataStructures/IntUtil.cpp 51-67) -/

namespace Verif.IntUtil

/-- The `while (low <= high)` loop of `IntUtil::indexOf`
(src/intDataStructures/IntUtil.cpp 51-63).  The array is a list (of `int`s, which the callers use for
non-negative numbers as well as for arbitrary ones), indices are `Int` as in C++.  Outcome `none`: the array is read outside its bounds. -/
def indexOf {α : Type} [LinearOrder α] (a : List α) (low high : Int) (v : α) : Option Int :=
  if h : low ≤ high then
    let mid := low + (high - low) / 2
    if mid < 0 then none else
    match a[mid.toNat]? with
    | none => none
    | some x =>
      if x = v then some mid
      else if v < x then indexOf a low (mid - 1) v
      else indexOf a (mid + 1) high v
  else some (-1)
termination_by (high - low + 1).toNat
decreasing_by all_goals omega

/-- `IntUtil::containsInt` (src/intDataStructures/IntUtil.cpp 65-67). -/
def containsInt {α : Type} [LinearOrder α] (a : List α) (low high : Int) (v : α) : Option Bool :=
  (indexOf a low high v).map (fun r => decide (0 ≤ r))

/-- Binary search on a sorted range: the result is in bounds, and it is the position of
`v` if `v` occurs in the range and `-1` otherwise. -/
theorem indexOf_spec {α : Type} [LinearOrder α] (a : List α) (hs : a.Pairwise (· ≤ ·)) (v : α) :
    ∀ (low high : Int), 0 ≤ low → high < a.length →
      ∃ r, indexOf a low high v = some r ∧
        ((r = -1 ∧ ∀ i : Nat, low ≤ i → (i : Int) ≤ high → a[i]? ≠ some v) ∨
          (low ≤ r ∧ r ≤ high ∧ a[r.toNat]? = some v)) := by
  intro low high
  induction hk : (high - low + 1).toNat using Nat.strongRecOn generalizing low high with
  | _ k ih =>
  intro h0 h1
  rw [indexOf]
  split
  · rename_i hle
    set mid := low + (high - low) / 2 with hmid
    have hm0 : ¬ mid < 0 := by omega
    have hmn : mid.toNat < a.length := by omega
    simp only [hm0, if_false, List.getElem?_eq_getElem hmn]
    split
    · rename_i hx
      exact ⟨mid, rfl, .inr ⟨by omega, by omega, by rw [List.getElem?_eq_getElem hmn, hx]⟩⟩
    · rename_i hx
      have hmono : ∀ i j : Nat, (hj : j < a.length) → (hij : i ≤ j) → a[i]'(by omega) ≤ a[j] := by
        intro i j hj hij
        rcases Nat.lt_or_eq_of_le hij with h | h
        · exact List.pairwise_iff_getElem.1 hs i j (by omega) hj h
        · subst h; exact le_refl _
      split
      · rename_i hlt
        obtain ⟨r, hr, hr'⟩ := ih _ (by omega) low (mid - 1) rfl h0 (by omega)
        refine ⟨r, hr, ?_⟩
        rcases hr' with ⟨h2, h3⟩ | ⟨h2, h3, h4⟩
        · refine .inl ⟨h2, fun i hi1 hi2 he => ?_⟩
          by_cases hi3 : (i : Int) ≤ mid - 1
          · exact h3 i hi1 hi3 he
          · obtain ⟨hlt', he'⟩ := List.getElem?_eq_some_iff.1 he
            have := hmono mid.toNat i hlt' (by omega)
            rw [he'] at this
            exact absurd hlt (not_lt.2 this)
        · exact .inr ⟨h2, by omega, h4⟩
      · rename_i hlt
        obtain ⟨r, hr, hr'⟩ := ih _ (by omega) (mid + 1) high rfl (by omega) h1
        refine ⟨r, hr, ?_⟩
        rcases hr' with ⟨h2, h3⟩ | ⟨h2, h3, h4⟩
        · refine .inl ⟨h2, fun i hi1 hi2 he => ?_⟩
          by_cases hi3 : mid + 1 ≤ (i : Int)
          · exact h3 i hi3 hi2 he
          · obtain ⟨hlt', he'⟩ := List.getElem?_eq_some_iff.1 he
            have := hmono i mid.toNat hmn (by omega)
            rw [he'] at this
            exact absurd (lt_of_le_of_ne this (fun e => hx e.symm)) hlt
        · exact .inr ⟨by omega, h3, h4⟩
  · exact ⟨-1, rfl, .inl ⟨rfl, fun i hi1 hi2 => by omega⟩⟩

end Verif.IntUtil
