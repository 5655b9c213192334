import Verif.StripsTrans
import Mathlib.Data.Nat.Choose.Basic

/-! # `combination` enumerates the subsets and `bin` counts them -/

namespace Verif.Sas

/-- The increasing lists with `k` of the last `d` numbers below `n`. -/
def cb (n : Nat) : Nat → Nat → List (List Nat)
  | _, 0 => [[]]
  | 0, _ + 1 => []
  | d + 1, k + 1 => (cb n d k).map ((n - (d + 1)) :: ·) ++ cb n d (k + 1)

theorem cb_length (n : Nat) : ∀ d k, (cb n d k).length = d.choose k
  | 0, 0 => rfl
  | d + 1, 0 => by simp [cb]
  | 0, k + 1 => rfl
  | d + 1, k + 1 => by
    rw [cb, List.length_append, List.length_map, cb_length n d k, cb_length n d (k + 1), Nat.choose_succ_succ]

theorem cb_first (n : Nat) : ∀ d k, k ≤ d → d ≤ n → (cb n d k)[0]? = some (List.range' (n - d) k)
  | d, 0, _, _ => by cases d <;> rfl
  | 0, k + 1, h, _ => absurd h (by omega)
  | d + 1, k + 1, h, hd => by
    have h0 := cb_first n d k (by omega) (by omega)
    have h1 : 0 < (cb n d k).length := (List.getElem?_eq_some_iff.1 h0).1
    rw [cb, List.getElem?_append_left (by simpa using h1), List.getElem?_map, h0]
    simp only [Option.map_some, Option.some.injEq]
    rw [List.range'_succ]
    congr 2
    omega

theorem cb_get_length {n d k i : Nat} {l : List Nat} (h : (cb n d k)[i]? = some l) : l.length = k := by
  induction d generalizing k i l with
  | zero =>
    cases k with
    | zero =>
      cases i with
      | zero =>
        simp only [cb, List.getElem?_cons_zero, Option.some.injEq] at h
        rw [← h]
        rfl
      | succ i => simp [cb] at h
    | succ k => simp [cb] at h
  | succ d ih =>
    cases k with
    | zero =>
      cases i with
      | zero =>
        simp only [cb, List.getElem?_cons_zero, Option.some.injEq] at h
        rw [← h]
        rfl
      | succ i => simp [cb] at h
    | succ k =>
      rw [cb] at h
      rcases Nat.lt_or_ge i ((cb n d k).map ((n - (d + 1)) :: ·)).length with hi | hi
      · rw [List.getElem?_append_left hi, List.getElem?_map] at h
        obtain ⟨r, hr, rfl⟩ := Option.map_eq_some_iff.1 h
        simp [ih hr]
      · rw [List.getElem?_append_right hi] at h
        exact ih h

/-- One round of the loop goes to the next list. -/
theorem cb_next {n d k i : Nat} (hd : d ≤ n) {l : List Nat} (h : (cb n d k)[i]? = some l) : nextComb n l = (cb n d k)[i + 1]? := by
  induction d generalizing k i l with
  | zero =>
    cases k with
    | zero =>
      cases i with
      | zero =>
        simp only [cb, List.getElem?_cons_zero, Option.some.injEq] at h
        rw [← h]
        rfl
      | succ i => simp [cb] at h
    | succ k => simp [cb] at h
  | succ d ih =>
    cases k with
    | zero =>
      cases i with
      | zero =>
        simp only [cb, List.getElem?_cons_zero, Option.some.injEq] at h
        rw [← h]
        rfl
      | succ i => simp [cb] at h
    | succ k =>
      rw [cb] at h ⊢
      rcases Nat.lt_or_ge i ((cb n d k).map ((n - (d + 1)) :: ·)).length with hi | hi
      · rw [List.getElem?_append_left hi, List.getElem?_map] at h
        obtain ⟨r, hr, rfl⟩ := Option.map_eq_some_iff.1 h
        have h1 := ih (by omega) hr
        have hlen := cb_get_length hr
        rw [List.length_map] at hi
        rcases Nat.lt_or_ge (i + 1) (cb n d k).length with hi' | hi'
        · rw [List.getElem?_append_left (by simpa using hi'), List.getElem?_map]
          rw [List.getElem?_eq_getElem hi'] at h1 ⊢
          simp only [nextComb, h1, Option.map_some]
        · rw [List.getElem?_append_right (by simpa using hi'), List.length_map, show i + 1 - (cb n d k).length = 0 by omega]
          rw [List.getElem?_eq_none hi'] at h1
          simp only [nextComb, h1, hlen]
          by_cases hk : k + 1 ≤ d
          · rw [if_pos (by omega), cb_first n d (k + 1) hk (by omega)]
            congr 2
            omega
          · rw [if_neg (by omega)]
            symm
            apply List.getElem?_eq_none
            rw [cb_length, Nat.choose_eq_zero_of_lt (by omega)]
      · rw [List.getElem?_append_right hi] at h
        rw [ih (by omega) h, List.getElem?_append_right (by omega)]
        congr 1
        omega

theorem mem_cb {n d k : Nat} (hd : d ≤ n) {l : List Nat} :
    l ∈ cb n d k ↔ l.length = k ∧ l.Pairwise (· < ·) ∧ ∀ x ∈ l, n - d ≤ x ∧ x < n := by
  induction d generalizing k l with
  | zero =>
    cases k with
    | zero =>
      simp only [cb, List.mem_singleton]
      constructor
      · rintro rfl
        simp
      · rintro ⟨h, -⟩
        exact List.length_eq_zero_iff.1 h
    | succ k =>
      simp only [cb, List.not_mem_nil, false_iff, not_and]
      intro h _ h2
      obtain ⟨x, r, rfl⟩ := List.exists_cons_of_length_eq_add_one h
      have := h2 x (.head _)
      omega
  | succ d ih =>
    cases k with
    | zero =>
      simp only [cb, List.mem_singleton]
      constructor
      · rintro rfl
        simp
      · rintro ⟨h, -⟩
        exact List.length_eq_zero_iff.1 h
    | succ k =>
      rw [cb, List.mem_append, List.mem_map, ih (by omega)]
      constructor
      · rintro (⟨r, hr, rfl⟩ | ⟨h1, h2, h3⟩)
        · obtain ⟨h1, h2, h3⟩ := (ih (by omega)).1 hr
          refine ⟨by simp [h1], List.pairwise_cons.2 ⟨fun y hy => ?_, h2⟩, fun y hy => ?_⟩
          · have := h3 y hy
            omega
          · rcases List.mem_cons.1 hy with rfl | hy
            · omega
            · have := h3 y hy
              omega
        · exact ⟨h1, h2, fun x hx => by have := h3 x hx; omega⟩
      · rintro ⟨h1, h2, h3⟩
        obtain ⟨x, r, rfl⟩ := List.exists_cons_of_length_eq_add_one h1
        obtain ⟨g1, g2⟩ := List.pairwise_cons.1 h2
        have hx := h3 x (.head _)
        by_cases e : x = n - (d + 1)
        · subst e
          refine .inl ⟨r, (ih (by omega)).2 ⟨by simpa using h1, g2, fun y hy => ?_⟩, rfl⟩
          have := g1 y hy
          have := h3 y (.tail _ hy)
          omega
        · refine .inr ⟨h1, h2, fun y hy => ?_⟩
          rcases List.mem_cons.1 hy with rfl | hy
          · omega
          · have := g1 y hy
            have := h3 y (.tail _ hy)
            omega

theorem combAt_eq {n k : Nat} (hk : k ≤ n) {i : Nat} (hi : i < n.choose k) : combAt n k i = (cb n n k)[i]? := by
  induction i with
  | zero => rw [cb_first n n k hk (le_refl _), Nat.sub_self, combAt, List.range_eq_range']
  | succ i ih =>
    have hi' : i < (cb n n k).length := by rw [cb_length]; omega
    rw [combAt, ih (by omega), List.getElem?_eq_getElem hi', Option.bind_some, cb_next (le_refl _) (List.getElem?_eq_getElem hi')]

/-- `combination` enumerates exactly the increasing lists of `k` numbers below `n`. -/
theorem combAt_mem {n k : Nat} (hk : k ≤ n) {l : List Nat} :
    (∃ i < n.choose k, combAt n k i = some l) ↔ l.length = k ∧ l.Pairwise (· < ·) ∧ ∀ x ∈ l, x < n := by
  have h := mem_cb (n := n) (d := n) (k := k) (le_refl _) (l := l)
  simp only [Nat.sub_self, Nat.zero_le, true_and] at h
  rw [← h]
  constructor
  · rintro ⟨i, hi, e⟩
    rw [combAt_eq hk hi] at e
    exact List.mem_of_getElem? e
  · intro hm
    obtain ⟨i, hi, rfl⟩ := List.getElem_of_mem hm
    have hi' : i < n.choose k := by rw [← cb_length n n k]; exact hi
    exact ⟨i, hi', by rw [combAt_eq hk hi', List.getElem?_eq_getElem hi]⟩

theorem combAt_some {n k i : Nat} (hk : k ≤ n) (hi : i < n.choose k) : ∃ l, combAt n k i = some l := by
  rw [combAt_eq hk hi]
  exact ⟨_, List.getElem?_eq_getElem (by rw [cb_length]; exact hi)⟩

/-- If the loop of `bin` does not overflow, it computes the binomial coefficient. -/
theorem binLoop_eq {n k b : Nat} (h : binLoop n k = some b) : b = n.choose k := by
  induction k generalizing b with
  | zero =>
    simp only [binLoop, Option.some.injEq] at h
    rw [← h, Nat.choose_zero_right]
  | succ k ih =>
    rw [binLoop, Option.bind_eq_some_iff] at h
    obtain ⟨c, hc, h⟩ := h
    split at h
    · cases h
      rw [ih hc, ← Nat.choose_succ_right_eq, Nat.mul_div_cancel _ (by omega)]
    · cases h

/-- The loop does not overflow if the products fit into 64 bits. -/
theorem binLoop_some {n k : Nat} (h : ∀ i < k, n.choose i * (n - i) < 2 ^ 63) : binLoop n k = some (n.choose k) := by
  induction k with
  | zero => simp [binLoop]
  | succ k ih =>
    rw [binLoop, ih fun i hi => h i (by omega), Option.bind_some, if_pos (h k (by omega)), ← Nat.choose_succ_right_eq,
      Nat.mul_div_cancel _ (by omega)]

/-- The number of operators per cell. -/
theorem stCount_eq {B n : Nat} {nl : Bool} {c : Nat} (hn : 2 ≤ n) (h : stCount B n nl = some c) :
    if (if nl then n else n - 1) ≤ B - 1 then c = (B - 1).choose (if nl then n else n - 1) else c = 1 := by
  rw [stCount, if_neg (by omega)] at h
  simp only at h
  generalize (if nl then n else n - 1) = k at *
  split_ifs at h with h1 h2
  · cases h
    rw [if_neg (by omega)]
  · cases h
    rw [if_pos (by omega), h2, Nat.choose_self]
  · rw [if_pos (by omega)]
    rw [Option.bind_eq_some_iff] at h
    obtain ⟨b, hb, h⟩ := h
    split at h
    · cases h
      exact binLoop_eq hb
    · cases h

end Verif.Sas
