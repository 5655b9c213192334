import Mathlib.Data.List.Perm.Basic
import Mathlib.Data.List.Sort
import Mathlib.Data.List.Dedup
import Mathlib.Order.Basic

/-! # Model of `IntUtil::sort`, `partition`, `makeSet`, `isSorted`, `copyExcluding`
(src/intDataStructures/IntUtil.cpp) and of the copies of `sort` and `partition` in
src/intDataStructures/bIntSet.cpp

Arrays are lists of integers.  Outcome `none`: access outside the array (or fuel). -/

namespace Verif.IntUtil

/-- `do { i++; } while (ints[i] < pivot);` (src/intDataStructures/IntUtil.cpp 33-35);
the argument is the first index that is examined. -/
def scanUp (a : List Int) (p : Int) (i : Nat) : Option Nat :=
  if h : i < a.length then
    if a[i] < p then scanUp a p (i + 1) else some i
  else none
termination_by a.length - i

/-- `do { j--; } while (ints[j] > pivot);` (src/intDataStructures/IntUtil.cpp 37-39);
the argument is `j` before the loop. -/
def scanDown (a : List Int) (p : Int) : Nat → Option Nat
  | 0 => none
  | j + 1 =>
    match a[j]? with
    | none => none
    | some x => if x > p then scanDown a p j else some j

/-- Exchange of two elements (src/intDataStructures/IntUtil.cpp 45-47). -/
def swap (a : List Int) (i j : Nat) : List Int :=
  (a.set i (a[j]?.getD 0)).set j (a[i]?.getD 0)

theorem scanDown_lt {a p} : ∀ {j r}, scanDown a p j = some r → r < j := by
  intro j
  induction j with
  | zero => intro r h; simp [scanDown] at h
  | succ j ih =>
    intro r h
    simp only [scanDown] at h
    split at h
    · simp at h
    · split at h
      · exact Nat.lt_succ_of_lt (ih h)
      · simp only [Option.some.injEq] at h; omega

/-- The `while (true)` loop of `partition` (src/intDataStructures/IntUtil.cpp 32-48); `i` is the
variable `i` of the code plus one. -/
def partLoop (a : List Int) (p : Int) (i j : Nat) : Option (List Int × Nat) :=
  match scanUp a p i with
  | none => none
  | some i' =>
    match hj : scanDown a p j with
    | none => none
    | some j' => if i' ≥ j' then some (a, j') else partLoop (swap a i' j') p (i' + 1) j'
termination_by j
decreasing_by exact scanDown_lt hj

/-- `IntUtil::partition` (src/intDataStructures/IntUtil.cpp 27-49, also
src/intDataStructures/bIntSet.cpp 107-129). -/
def partition (a : List Int) (lo hi : Nat) : Option (List Int × Nat) :=
  match a[(lo + hi) / 2]? with
  | none => none
  | some p => partLoop a p lo (hi + 1)

/-- `IntUtil::sort` (src/intDataStructures/IntUtil.cpp 19-25, also
src/intDataStructures/bIntSet.cpp 99-105).  `maxIndex` is -1 for an empty array, here 0: both make
the condition false. -/
def sort : Nat → List Int → Nat → Nat → Option (List Int)
  | 0, _, _, _ => none
  | f + 1, a, lo, hi =>
    if lo < hi then
      match partition a lo hi with
      | none => none
      | some (a1, p) =>
        match sort f a1 lo p with
        | none => none
        | some a2 => sort f a2 (p + 1) hi
    else some a

/-- `IntUtil::isSorted` (src/intDataStructures/IntUtil.cpp 80-88). -/
def isSorted (a : List Int) : Bool :=
  (List.range (a.length - 1)).all fun i => !decide (a[i]?.getD 0 > a[i + 1]?.getD 0)

/-- The test for equal neighbours in `makeSet` (src/intDataStructures/IntUtil.cpp 95-101). -/
def hasEqualNeighbours (a : List Int) : Bool :=
  (List.range (a.length - 1)).any fun i => decide (a[i]?.getD 0 = a[i + 1]?.getD 0)

/-- Iteration over a `std::set<int>` with the elements of `a`: ascending, without repetition. -/
def setOf (a : List Int) : List Int := a.dedup.mergeSort (· ≤ ·)

/-- `IntUtil::makeSet` (src/intDataStructures/IntUtil.cpp 90-120) on an array of the given size:
the new content and the number of elements of the set. -/
def makeSet (fuel : Nat) (a : List Int) : Option (List Int × Nat) :=
  if a.length ≤ 1 then some (a, a.length)
  else
    match sort fuel a 0 (a.length - 1) with
    | none => none
    | some b =>
      if hasEqualNeighbours b then
        some (setOf b ++ List.replicate (b.length - (setOf b).length) (-1), (setOf b).length)
      else some (b, b.length)

/-- `IntUtil::copyExcluding` (src/intDataStructures/IntUtil.cpp 69-78): the result array has
`size - 1` entries.  Outcome `none`: write outside the array; the part that has not been written
is uninitialised memory, modelled as `none` entries. -/
def copyExcluding (a : List Int) (x : Int) : Option (List (Option Int)) :=
  let out := a.filter (fun y => y ≠ x)
  if out.length ≤ a.length - 1 then
    some (out.map some ++ List.replicate (a.length - 1 - out.length) none)
  else none

/-! ## Correctness -/

/-- The value at an index. -/
abbrev at' (a : List Int) (k : Nat) : Int := a[k]?.getD 0

theorem scanUp_spec {a : List Int} {p : Int} : ∀ {d i k : Nat}, k - i = d → i ≤ k → k < a.length → p ≤ at' a k →
    ∃ r, scanUp a p i = some r ∧ i ≤ r ∧ r ≤ k ∧ p ≤ at' a r ∧ ∀ m, i ≤ m → m < r → at' a m < p := by
  intro d
  induction d with
  | zero =>
    intro i k hd hik hk hp
    have hi : i = k := by omega
    subst hi
    refine ⟨i, ?_, le_refl _, le_refl _, hp, by omega⟩
    rw [scanUp, dif_pos hk, if_neg]
    simp only [at', List.getElem?_eq_getElem hk, Option.getD_some] at hp
    omega
  | succ d ih =>
    intro i k hd hik hk hp
    have hi : i < a.length := by omega
    rw [scanUp, dif_pos hi]
    by_cases hx : a[i] < p
    · rw [if_pos hx]
      obtain ⟨r, h1, h2, h3, h4, h5⟩ := ih (i := i + 1) (by omega) (by omega) hk hp
      refine ⟨r, h1, by omega, h3, h4, fun m hm hr => ?_⟩
      rcases Nat.lt_or_eq_of_le hm with hm | rfl
      · exact h5 m hm hr
      · simpa only [at', List.getElem?_eq_getElem hi, Option.getD_some] using hx
    · rw [if_neg hx]
      refine ⟨i, rfl, le_refl _, hik, ?_, by omega⟩
      simp only [at', List.getElem?_eq_getElem hi, Option.getD_some]
      omega

theorem scanDown_spec {a : List Int} {p : Int} {k : Nat} : ∀ {j : Nat}, k < j → j ≤ a.length → at' a k ≤ p →
    ∃ r, scanDown a p j = some r ∧ k ≤ r ∧ r < j ∧ at' a r ≤ p ∧ ∀ m, r < m → m < j → p < at' a m := by
  intro j
  induction j with
  | zero => intro h; omega
  | succ j ih =>
    intro hk hj hp
    have hjl : j < a.length := by omega
    simp only [scanDown, List.getElem?_eq_getElem hjl]
    by_cases hx : a[j] > p
    · rw [if_pos hx]
      have hne : k ≠ j := by
        rintro rfl
        simp only [at', List.getElem?_eq_getElem hjl, Option.getD_some] at hp
        omega
      obtain ⟨r, h1, h2, h3, h4, h5⟩ := ih (by omega) (by omega) hp
      refine ⟨r, h1, h2, by omega, h4, fun m hm hr => ?_⟩
      rcases Nat.lt_or_eq_of_le (Nat.le_of_lt_succ hr) with hr | rfl
      · exact h5 m hm hr
      · simpa only [at', List.getElem?_eq_getElem hjl, Option.getD_some] using hx
    · rw [if_neg hx]
      refine ⟨j, rfl, by omega, by omega, ?_, by omega⟩
      simp only [at', List.getElem?_eq_getElem hjl, Option.getD_some]
      omega

theorem length_swap (a i j) : (swap a i j).length = a.length := by simp [swap]

theorem at_swap {a : List Int} {i j : Nat} (hi : i < a.length) (hj : j < a.length) (k : Nat) :
    at' (swap a i j) k = if k = j then at' a i else if k = i then at' a j else at' a k := by
  simp only [at', swap, List.getElem?_set, List.length_set]
  by_cases h1 : j = k
  · subst h1; simp [hj]
  · have h1' : ¬ k = j := fun h => h1 h.symm
    by_cases h2 : i = k
    · subst h2; simp [hi, h1, h1']
    · have h2' : ¬ k = i := fun h => h2 h.symm
      simp [h1, h1', h2, h2']

theorem swap_perm {a : List Int} {i j : Nat} (hi : i < a.length) (hj : j < a.length) : (swap a i j).Perm a := by
  simp only [swap, List.getElem?_eq_getElem hi, List.getElem?_eq_getElem hj, Option.getD_some]
  exact List.set_set_perm hi hj

theorem partLoop_spec {p : Int} {lo hi : Nat} : ∀ {n j : Nat}, j = n → ∀ {a : List Int} {i : Nat}, hi < a.length → lo ≤ i →
    j ≤ hi + 1 → (∀ m, lo ≤ m → m < i → at' a m ≤ p) → (∀ m, j ≤ m → m ≤ hi → p ≤ at' a m) →
    ((∃ k, i ≤ k ∧ k ≤ hi ∧ p ≤ at' a k) ∧ (∃ k, lo ≤ k ∧ k < j ∧ at' a k ≤ p) ∧
      (j ≤ hi ∨ ∃ m, i ≤ m ∧ m < hi ∧ at' a m = p)) →
    ∃ b r, partLoop a p i j = some (b, r) ∧ b.Perm a ∧ lo ≤ r ∧ r < hi ∧
      (∀ m, lo ≤ m → m ≤ r → at' b m ≤ p) ∧ (∀ m, r < m → m ≤ hi → p ≤ at' b m) ∧
      (∀ m, m < lo ∨ hi < m → b[m]? = a[m]?) := by
  intro n
  induction n using Nat.strong_induction_on with
  | _ n ih =>
  rintro j rfl a i hhi hloi hj hle hge ⟨⟨k, hk1, hk2, hk3⟩, ⟨k', hk1', hk2', hk3'⟩, hor⟩
  obtain ⟨i', hu, hi1, hi2, hi3, hi4⟩ := scanUp_spec rfl hk1 (by omega) hk3
  obtain ⟨j', hd, hj1, hj2, hj3, hj4⟩ := scanDown_spec hk2' (by omega) hk3'
  rw [partLoop, hu]
  simp only
  split
  · rename_i h; rw [hd] at h; simp at h
  · rename_i j'' h
    rw [hd] at h
    simp only [Option.some.injEq] at h
    subst h
    by_cases hij : i' ≥ j'
    · rw [if_pos hij]
      refine ⟨a, j', rfl, List.Perm.refl _, by omega, ?_, ?_, ?_, fun _ _ => rfl⟩
      · rcases hor with h | ⟨m, hm1, hm2, hm3⟩
        · omega
        · -- the pivot stops both scans
          have h1 : i' ≤ m := by
            by_contra h
            have := hi4 m hm1 (by omega)
            omega
          omega
      · intro m hm1 hm2
        rcases Nat.lt_or_eq_of_le hm2 with h | rfl
        · by_cases hmi : m < i
          · exact hle m hm1 hmi
          · exact le_of_lt (hi4 m (by omega) (by omega))
        · exact hj3
      · intro m hm1 hm2
        by_cases hmj : m < j
        · exact le_of_lt (hj4 m hm1 hmj)
        · exact hge m (by omega) hm2
    · rw [if_neg hij]
      have hil : i' < a.length := by omega
      have hjl : j' < a.length := by omega
      have hsw := at_swap hil hjl
      have g1 : ∀ m, lo ≤ m → m < i' + 1 → at' (swap a i' j') m ≤ p := by
        intro m hm1 hm2
        rw [hsw]
        split_ifs with e1 e2
        · omega
        · exact hj3
        · by_cases hmi : m < i
          · exact hle m hm1 hmi
          · exact le_of_lt (hi4 m (by omega) (by omega))
      have g2 : ∀ m, j' ≤ m → m ≤ hi → p ≤ at' (swap a i' j') m := by
        intro m hm1 hm2
        rw [hsw]
        split_ifs with e1 e2
        · exact hi3
        · omega
        · by_cases hmj : m < j
          · exact le_of_lt (hj4 m (by omega) hmj)
          · exact hge m (by omega) hm2
      have g3 : p ≤ at' (swap a i' j') j' := by rw [hsw, if_pos rfl]; exact hi3
      have g4 : at' (swap a i' j') i' ≤ p := by
        rw [hsw, if_neg (by omega), if_pos rfl]; exact hj3
      obtain ⟨b, r, h1, h2, h3, h4, h5, h6, h7⟩ := ih j' hj2 (j := j') rfl (a := swap a i' j') (i := i' + 1)
        (by rw [length_swap]; exact hhi) (by omega) (by omega) g1 g2
        ⟨⟨j', by omega, by omega, g3⟩, ⟨i', by omega, by omega, g4⟩, .inl (by omega)⟩
      refine ⟨b, r, h1, h2.trans (swap_perm hil hjl), h3, h4, h5, h6, fun m hm => ?_⟩
      rw [h7 m hm]
      simp only [swap, List.getElem?_set]
      rw [if_neg (by omega), if_neg (by omega)]

theorem partition_spec {a : List Int} {lo hi : Nat} (hlt : lo < hi) (hhi : hi < a.length) :
    ∃ b r p, partition a lo hi = some (b, r) ∧ b.Perm a ∧ lo ≤ r ∧ r < hi ∧
      (∀ m, lo ≤ m → m ≤ r → at' b m ≤ p) ∧ (∀ m, r < m → m ≤ hi → p ≤ at' b m) ∧
      (∀ m, m < lo ∨ hi < m → b[m]? = a[m]?) := by
  have hm : (lo + hi) / 2 < a.length := by omega
  have hat : at' a ((lo + hi) / 2) = a[(lo + hi) / 2] := by
    simp [at', List.getElem?_eq_getElem hm]
  obtain ⟨b, r, h⟩ := partLoop_spec (p := a[(lo + hi) / 2]) (lo := lo) (hi := hi) rfl (j := hi + 1) (i := lo) hhi
    le_rfl le_rfl (by omega) (by omega)
    ⟨⟨(lo + hi) / 2, by omega, by omega, by rw [hat]⟩, ⟨(lo + hi) / 2, by omega, by omega, by rw [hat]⟩,
      .inr ⟨(lo + hi) / 2, by omega, by omega, hat⟩⟩
  exact ⟨b, r, _, by rw [partition, List.getElem?_eq_getElem hm]; exact h.1, h.2⟩

/-- What holds for the elements of a range before also holds afterwards. -/
theorem range_of_perm {a b : List Int} {lo hi : Nat} (hp : b.Perm a) (hhi : hi < a.length)
    (hout : ∀ m, m < lo ∨ hi < m → b[m]? = a[m]?) {Q : Int → Prop}
    (h : ∀ m, lo ≤ m → m ≤ hi → Q (at' a m)) : ∀ m, lo ≤ m → m ≤ hi → Q (at' b m) := by
  intro m h1 h2
  have hl := hp.length_eq
  -- the middle segments are permutations of each other
  have hseg : ((b.drop lo).take (hi + 1 - lo)).Perm ((a.drop lo).take (hi + 1 - lo)) := by
    have hpre : b.take lo = a.take lo := by
      apply List.ext_getElem?
      intro k
      rw [List.getElem?_take, List.getElem?_take]
      split_ifs with hk
      · exact hout k (.inl hk)
      · rfl
    have hsuf : b.drop (hi + 1) = a.drop (hi + 1) := by
      apply List.ext_getElem?
      intro k
      rw [List.getElem?_drop, List.getElem?_drop]
      exact hout _ (.inr (by omega))
    have hsplit : ∀ c : List Int, c.take lo ++ ((c.drop lo).take (hi + 1 - lo) ++ c.drop (hi + 1)) = c := by
      intro c
      conv_rhs => rw [← List.take_append_drop lo c, ← List.take_append_drop (hi + 1 - lo) (c.drop lo)]
      rw [List.drop_drop, show lo + (hi + 1 - lo) = hi + 1 by omega]
    rw [← hsplit a, ← hsplit b, hpre, hsuf] at hp
    rw [List.perm_append_left_iff, List.perm_append_right_iff] at hp
    exact hp
  have hmem : at' b m ∈ (b.drop lo).take (hi + 1 - lo) := by
    have hb : m < b.length := by omega
    rw [List.mem_iff_getElem?]
    refine ⟨m - lo, ?_⟩
    rw [List.getElem?_take, if_pos (by omega), List.getElem?_drop, show lo + (m - lo) = m by omega,
      List.getElem?_eq_getElem hb]
    simp [at', List.getElem?_eq_getElem hb]
  rw [hseg.mem_iff, List.mem_iff_getElem?] at hmem
  obtain ⟨k, hk⟩ := hmem
  rw [List.getElem?_take] at hk
  split_ifs at hk with hkl
  rw [List.getElem?_drop] at hk
  have := h (lo + k) (by omega) (by omega)
  simp only [at', hk, Option.getD_some] at this
  exact this

theorem sort_spec : ∀ {f : Nat} {a : List Int} {lo hi : Nat}, hi - lo < f → hi < a.length ∨ hi ≤ lo →
    ∃ b, sort f a lo hi = some b ∧ b.Perm a ∧ (∀ m, m < lo ∨ hi < m → b[m]? = a[m]?) ∧
      ∀ i j, lo ≤ i → i ≤ j → j ≤ hi → at' b i ≤ at' b j := by
  intro f
  induction f with
  | zero => intro a lo hi h; omega
  | succ f ih =>
    intro a lo hi hf hh
    rw [sort]
    by_cases hlt : lo < hi
    · rw [if_pos hlt]
      have hhi : hi < a.length := by omega
      obtain ⟨a1, r, p, h1, h2, h3, h4, h5, h6, h7⟩ := partition_spec hlt hhi
      have hl1 := h2.length_eq
      obtain ⟨a2, i1, i2, i3, i4⟩ := ih (a := a1) (lo := lo) (hi := r) (by omega) (.inl (by omega))
      have hl2 := i2.length_eq
      obtain ⟨a3, j1, j2, j3, j4⟩ := ih (a := a2) (lo := r + 1) (hi := hi) (by omega) (.inl (by omega))
      refine ⟨a3, by simp only [h1, i1, j1], j2.trans (i2.trans h2), fun m hm => ?_, fun x y hx hxy hy => ?_⟩
      · rw [j3 m (by omega), i3 m (by omega), h7 m hm]
      · have hlow : ∀ m, lo ≤ m → m ≤ r → at' a2 m ≤ p :=
          range_of_perm i2 (by omega) i3 (Q := fun x => x ≤ p) h5
        have hlow3 : ∀ m, m ≤ r → at' a3 m = at' a2 m := fun m hm => by simp only [at', j3 m (by omega)]
        have hup2 : ∀ m, r + 1 ≤ m → m ≤ hi → p ≤ at' a2 m := fun m hm1 hm2 => by
          simp only [at', i3 m (by omega)]; exact h6 m (by omega) hm2
        have hup : ∀ m, r + 1 ≤ m → m ≤ hi → p ≤ at' a3 m :=
          range_of_perm j2 (by omega) j3 (Q := fun x => p ≤ x) hup2
        by_cases hyr : y ≤ r
        · rw [hlow3 x (by omega), hlow3 y hyr]; exact i4 x y hx hxy hyr
        · by_cases hxr : x ≤ r
          · rw [hlow3 x hxr]
            exact le_trans (hlow x hx hxr) (hup y (by omega) hy)
          · exact j4 x y (by omega) hxy hy
    · rw [if_neg hlt]
      exact ⟨a, rfl, List.Perm.refl _, fun _ _ => rfl, fun i j h1 h2 h3 => by
        have : i = j := by omega
        subst this; exact le_refl _⟩

theorem pairwise_of_at {a : List Int} (h : ∀ i j, i ≤ j → j < a.length → at' a i ≤ at' a j) :
    a.Pairwise (· ≤ ·) := by
  rw [List.pairwise_iff_getElem]
  intro i j hi hj hij
  have := h i j (by omega) hj
  simpa [at', List.getElem?_eq_getElem hi, List.getElem?_eq_getElem hj] using this

theorem sort_full {f : Nat} {a : List Int} (hf : a.length ≤ f) (hne : a ≠ []) :
    ∃ b, sort f a 0 (a.length - 1) = some b ∧ b.Perm a ∧ b.Pairwise (· ≤ ·) := by
  have hl : 0 < a.length := List.length_pos_iff.2 hne
  obtain ⟨b, h1, h2, -, h4⟩ := sort_spec (f := f) (a := a) (lo := 0) (hi := a.length - 1) (by omega) (.inl (by omega))
  refine ⟨b, h1, h2, pairwise_of_at fun i j hij hj => h4 i j (by omega) hij ?_⟩
  rw [h2.length_eq] at hj; omega

theorem hasEqualNeighbours_false {a : List Int} (hs : a.Pairwise (· ≤ ·)) (h : hasEqualNeighbours a = false) :
    a.Pairwise (· < ·) := by
  rw [List.pairwise_iff_getElem] at hs ⊢
  intro i j hi hj hij
  have h1 : a[i] ≠ a[i + 1] := by
    simp only [hasEqualNeighbours, List.any_eq_false, List.mem_range, decide_eq_true_eq] at h
    have := h i (by omega)
    simpa [List.getElem?_eq_getElem hi, List.getElem?_eq_getElem (show i + 1 < a.length by omega)] using this
  have h2 := hs i (i + 1) hi (by omega) (by omega)
  rcases Nat.lt_or_eq_of_le (Nat.succ_le_of_lt hij) with h3 | h3
  · have := hs (i + 1) j (by omega) hj h3
    omega
  · have h4 : a[j] = a[i + 1] := by congr 1; omega
    omega

theorem mem_setOf {a : List Int} {x : Int} : x ∈ setOf a ↔ x ∈ a := by
  simp [setOf, List.mem_mergeSort]

theorem setOf_sorted (a : List Int) : (setOf a).Pairwise (· < ·) := by
  have h1 : (setOf a).Pairwise (· ≤ ·) := by
    have := List.pairwise_mergeSort (le := fun x y : Int => decide (x ≤ y))
      (fun x y z h1 h2 => by simp at *; omega) (fun x y => by simp; omega) a.dedup
    simpa [setOf] using this
  have h2 : (setOf a).Nodup := (List.mergeSort_perm _ _).nodup_iff.2 (List.nodup_dedup a)
  exact (h1.and h2).imp fun ⟨h, h'⟩ => lt_of_le_of_ne h h'

end Verif.IntUtil
