import Verif.IntSearch
import Mathlib.Data.Finset.Card
import Mathlib.Data.List.Sort
import Mathlib.Data.List.Count

/-! # Model of the task counters of search nodes

`containedTasks` / `containedTaskCount` of a search node are modelled by one list of
pairs (task, count).  Modelled code: `Model::updateTaskCounterA` (src/Model.cpp
237-263), `Model::updateTaskCounterM` (src/Model.cpp 388-492) and the computation of
`sortedDistinctSubtasks` in `Model::readHierarchical` (src/Model.cpp 2014-2055).
Outcome `none`: the code would access an array outside its bounds. -/

namespace Verif.TaskCounter

open Verif.IntUtil

abbrev Counter := List (Nat × Nat)

/-- The `containedTasks` array. -/
def keys (c : Counter) : List Nat := c.map Prod.fst

/-- `Model::updateTaskCounterA` (src/Model.cpp 237-263). -/
def updA (c : Counter) (a : Nat) : Option Counter := do
  let ai ← indexOf (keys c) 0 ((keys c).length - 1) a
  if ai < 0 then none else
  let (t, k) ← c[ai.toNat]?
  let mid := if k = 1 then [] else [(t, k - 1)]
  return c.take ai.toNat ++ mid ++ c.drop (ai.toNat + 1)

/-- First loop of `Model::updateTaskCounterM` (src/Model.cpp 405-415): number of distinct
subtasks not yet contained; `low` moves behind the last hit. -/
def countNew (ks : List Nat) : List Nat → Int → Option Nat
  | [], _ => some 0
  | st :: d, low => do
    let index ← indexOf ks low (ks.length - 1) st
    if 0 ≤ index then countNew ks d (index + 1)
    else do
      let r ← countNew ks d low
      return r + 1

/-- The merge loop of `Model::updateTaskCounterM` (src/Model.cpp 433-485); the arguments
are the parts of the arrays not yet consumed (`itn`, `im`). -/
def merge (rm : Bool) (mAbs : Nat) : Counter → Counter → Counter
  | [], [] => []
  | (t, k) :: c, (s, j) :: d =>
    if rm && t == mAbs then merge rm mAbs c ((s, j) :: d)
    else if rm && s == mAbs then merge rm mAbs ((t, k) :: c) d
    else if t < s then (t, k) :: merge rm mAbs c ((s, j) :: d)
    else if s < t then (s, j) :: merge rm mAbs ((t, k) :: c) d
    else (s, j + k) :: merge rm mAbs c d
  | (t, k) :: c, [] =>
    if rm && t == mAbs then merge rm mAbs c []
    else (t, k) :: merge rm mAbs c []
  | [], (s, j) :: d =>
    if rm && s == mAbs then merge rm mAbs [] d
    else (s, j) :: merge rm mAbs [] d
termination_by c d => c.length + d.length

/-- `Model::updateTaskCounterM` (src/Model.cpp 388-492).  `d` are the sorted distinct
subtasks of the method with their counts.  The result array is allocated with a
precomputed size; if the merge produced a different number of entries the outcome is
`none`. -/
def updM (c d : Counter) (mAbs : Nat) : Option Counter := do
  let newElements ← countNew (keys c) (keys d) 0
  let index ← indexOf (keys c) 0 ((keys c).length - 1) mAbs
  if index < 0 then none else
  let (_, k) ← c[index.toNat]?
  let inM ← indexOf (keys d) 0 ((keys d).length - 1) mAbs
  let rm := k == 1 && decide (inM < 0)
  let size := c.length + newElements - (if rm then 1 else 0)
  let r := merge rm mAbs c d
  if r.length ≠ size then none else
  if rm then return r else
  let index ← indexOf (keys r) 0 ((keys r).length - 1) mAbs
  if index < 0 then none else
  let (t, k) ← r[index.toNat]?
  return r.set index.toNat (t, k - 1)

/-- Run-length compression of the sorted subtask list (src/Model.cpp 2033-2050).  At
position `i` the loop counts the following equal entries (`j`), adds them to
`stcount[i]` and shifts the rest of the array to the left; the model works on the list
of the entries from position `i` on. -/
def compress : List Nat → Counter
  | [] => []
  | x :: xs =>
    let j := (xs.takeWhile (· == x)).length
    (x, 1 + j) :: compress (xs.drop j)
termination_by l => l.length
decreasing_by simp; omega

/-! ## Specification -/

/-- How often a task is recorded. -/
def cnt (c : Counter) (t : Nat) : Nat := ((c.filter (fun e => e.1 == t)).map Prod.snd).sum

/-- Ascending without duplicates, and all counts positive. -/
structure Ok (c : Counter) : Prop where
  sorted : (keys c).Pairwise (· < ·)
  pos : ∀ e ∈ c, 0 < e.2

@[simp] theorem cnt_nil (t) : cnt [] t = 0 := rfl

@[simp] theorem cnt_cons (e c t) : cnt (e :: c) t = (if e.1 = t then e.2 else 0) + cnt c t := by
  by_cases h : e.1 = t <;> simp [cnt, h]

theorem cnt_append (c d t) : cnt (c ++ d) t = cnt c t + cnt d t := by
  simp [cnt, List.filter_append]

theorem cnt_eq_zero {c : Counter} {t} (h : t ∉ keys c) : cnt c t = 0 := by
  induction c with
  | nil => rfl
  | cons e c ih =>
    simp only [keys, List.map_cons, List.mem_cons, not_or] at h
    rw [cnt_cons, if_neg (fun h' => h.1 h'.symm), ih h.2]

theorem Ok.tail {e c} (h : Ok (e :: c)) : Ok c :=
  ⟨(List.pairwise_cons.1 h.sorted).2, fun x hx => h.pos x (List.mem_cons_of_mem _ hx)⟩

theorem Ok.notMem {t k c} (h : Ok ((t, k) :: c)) : t ∉ keys c := fun hm =>
  Nat.lt_irrefl _ ((List.pairwise_cons.1 h.sorted).1 t hm)

theorem cnt_of_mem {c : Counter} (h : Ok c) {t k} (hm : (t, k) ∈ c) : cnt c t = k := by
  induction c with
  | nil => simp at hm
  | cons e c ih =>
    rcases List.mem_cons.1 hm with rfl | hm
    · rw [cnt_cons, if_pos rfl, cnt_eq_zero h.notMem]; simp
    · have : t ∈ keys c := List.mem_map.2 ⟨_, hm, rfl⟩
      have hne : e.1 ≠ t := fun he => by
        have := (List.pairwise_cons.1 h.sorted).1 t this
        rw [he] at this; exact Nat.lt_irrefl _ this
      rw [cnt_cons, if_neg hne, ih h.tail hm]; simp

theorem mem_keys_iff {c : Counter} (h : Ok c) {t} : t ∈ keys c ↔ 0 < cnt c t := by
  constructor
  · intro hm
    obtain ⟨⟨t', k⟩, hm', rfl⟩ := List.mem_map.1 hm
    rw [cnt_of_mem h hm']; exact h.pos _ hm'
  · intro hc
    by_contra hn
    rw [cnt_eq_zero hn] at hc; exact Nat.lt_irrefl _ hc

theorem Ok.le {c} (h : Ok c) : (keys c).Pairwise (· ≤ ·) := h.sorted.imp Nat.le_of_lt

/-- Position search in the key array of a counter. -/
theorem indexOf_keys {c : Counter} (h : Ok c) (t : Nat) :
    (t ∉ keys c ∧ indexOf (keys c) 0 ((keys c).length - 1) t = some (-1)) ∨
    (∃ i k, ∃ hi : i < c.length, indexOf (keys c) 0 ((keys c).length - 1) t = some (i : Int) ∧
      c[i] = (t, k) ∧ cnt c t = k) := by
  obtain ⟨r, hr, hr'⟩ := indexOf_spec (keys c) h.le t 0 ((keys c).length - 1) (by omega) (by omega)
  rcases hr' with ⟨rfl, hn⟩ | ⟨h0, h1, h2⟩
  · refine .inl ⟨fun hm => ?_, hr⟩
    obtain ⟨i, hi, he⟩ := List.mem_iff_getElem.1 hm
    exact hn i (by omega) (by omega) (by rw [List.getElem?_eq_getElem hi, he])
  · right
    have hi : r.toNat < c.length := by
      have := (List.getElem?_eq_some_iff.1 h2).1
      simpa [keys] using this
    have he : (c[r.toNat]).1 = t := by
      have := (List.getElem?_eq_some_iff.1 h2).2
      simpa [keys] using this
    refine ⟨r.toNat, (c[r.toNat]).2, hi, ?_, ?_, ?_⟩
    · rw [hr, Int.toNat_of_nonneg h0]
    · exact Prod.ext he rfl
    · exact cnt_of_mem h (by rw [← he]; exact List.getElem_mem hi)

theorem keys_append (c d) : keys (c ++ d) = keys c ++ keys d := by simp [keys]

/-- Applying an action removes one occurrence of it from the counter. -/
theorem updA_spec {c : Counter} (h : Ok c) {a} (ha : 0 < cnt c a) :
    ∃ r, updA c a = some r ∧ Ok r ∧ ∀ t, cnt r t = cnt c t - (if t = a then 1 else 0) := by
  rcases indexOf_keys h a with ⟨hn, _⟩ | ⟨i, k, hi, hidx, hget, hcnt⟩
  · rw [cnt_eq_zero hn] at ha; exact absurd ha (Nat.lt_irrefl _)
  · have hsplit : c = c.take i ++ (a, k) :: c.drop (i + 1) := by
      conv_lhs => rw [← List.take_append_drop i c, List.drop_eq_getElem_cons hi, hget]
    set l := c.take i
    set r := c.drop (i + 1)
    have hval : updA c a = some (l ++ (if k = 1 then [] else [(a, k - 1)]) ++ r) := by
      simp only [updA, hidx]
      simp [hi, hget, l, r]
    refine ⟨_, hval, ?_, ?_⟩
    · have hs := h.sorted
      rw [hsplit, keys_append] at hs
      have hp := h.pos
      constructor
      · split
        · simp only [List.append_nil, keys_append]
          refine hs.sublist (List.Sublist.append_left ?_ _)
          simp [keys]
        · simp only [keys_append]
          simpa [keys] using hs
      · intro e he
        split at he
        · simp only [List.append_nil, List.mem_append] at he
          exact hp e (by rw [hsplit]; simp only [List.mem_append, List.mem_cons]; tauto)
        · simp only [List.mem_append, List.mem_singleton] at he
          rcases he with (he | he) | he
          · exact hp e (by rw [hsplit]; simp only [List.mem_append, List.mem_cons]; tauto)
          · subst he
            have := hp (a, k) (by rw [hsplit]; simp)
            simp only at this ⊢; omega
          · exact hp e (by rw [hsplit]; simp only [List.mem_append, List.mem_cons]; tauto)
    · intro t
      have hl : cnt l a = 0 ∧ cnt r a = 0 := by
        have : cnt c a = cnt l a + (k + cnt r a) := by
          conv_lhs => rw [hsplit]
          rw [cnt_append, cnt_cons]; simp
        omega
      have hc : cnt c t = cnt l t + ((if a = t then k else 0) + cnt r t) := by
        conv_lhs => rw [hsplit]
        rw [cnt_append, cnt_cons]
      rw [cnt_append, cnt_append, hc]
      have hk : 0 < k := by omega
      by_cases hta : a = t
      · subst hta
        rw [hl.1, hl.2]
        by_cases hk1 : k = 1
        · simp [hk1]
        · simp [hk1]
      · have : t ≠ a := fun h => hta h.symm
        by_cases hk1 : k = 1 <;> simp [hk1, hta, this]

theorem countNew_spec {ks : List Nat} (hks : ks.Pairwise (· < ·)) :
    ∀ (d : List Nat) (low : Int), d.Pairwise (· < ·) → 0 ≤ low →
      (∀ s ∈ d, ∀ i : Nat, (i : Int) < low → ∀ x, ks[i]? = some x → x < s) →
      countNew ks d low = some (d.filter (fun s => s ∉ ks)).length := by
  intro d
  induction d with
  | nil => intro low _ _ _; rfl
  | cons s d ih =>
    intro low hd h0 hlow
    obtain ⟨hd1, hd2⟩ := List.pairwise_cons.1 hd
    obtain ⟨r, hr, hr'⟩ := indexOf_spec ks (hks.imp Nat.le_of_lt) s low (ks.length - 1) h0 (by omega)
    rw [countNew, hr]
    rcases hr' with ⟨rfl, hn⟩ | ⟨h1, h2, h3⟩
    · have hnm : s ∉ ks := by
        intro hm
        obtain ⟨i, hi, he⟩ := List.mem_iff_getElem.1 hm
        by_cases hil : (i : Int) < low
        · have := hlow s List.mem_cons_self i hil s (by rw [List.getElem?_eq_getElem hi, he])
          exact Nat.lt_irrefl _ this
        · exact hn i (by omega) (by omega) (by rw [List.getElem?_eq_getElem hi, he])
      have := ih low hd2 h0 (fun x hx => hlow x (List.mem_cons_of_mem _ hx))
      simp [this, hnm]
    · have hm : s ∈ ks := List.mem_of_getElem? h3
      have hr0 : 0 ≤ r := by omega
      have := ih (r + 1) hd2 (by omega) (by
        intro x hx i hi y hy
        have hsx := hd1 x hx
        have hir : i ≤ r.toNat := by omega
        obtain ⟨hi', hye⟩ := List.getElem?_eq_some_iff.1 hy
        obtain ⟨hr'', hse⟩ := List.getElem?_eq_some_iff.1 h3
        rcases Nat.lt_or_eq_of_le hir with hlt | heq
        · have := List.pairwise_iff_getElem.1 hks i r.toNat hi' hr'' hlt
          omega
        · subst heq; omega)
      simp [hr0, this, hm]

theorem merge_cnt (rm : Bool) (mAbs : Nat) (c d : Counter) (t : Nat) :
    cnt (merge rm mAbs c d) t = if rm = true ∧ t = mAbs then 0 else cnt c t + cnt d t := by
  fun_induction merge rm mAbs c d with
  | case1 => simp
  | case2 t' k c s j d h ih =>
    simp only [Bool.and_eq_true, beq_iff_eq] at h
    rw [ih]
    by_cases ht : t = mAbs
    · simp [h.1, ht]
    · have : ¬ t' = t := fun h' => ht (h' ▸ h.2)
      simp [ht, this]
  | case3 t' k c s j d _ h ih =>
    simp only [Bool.and_eq_true, beq_iff_eq] at h
    rw [ih]
    by_cases ht : t = mAbs
    · simp [h.1, ht]
    · have : ¬ s = t := fun h' => ht (h' ▸ h.2)
      simp [ht, this]
  | case4 t' k c s j d h1 h2 h3 ih =>
    rw [cnt_cons, ih]
    simp only [Bool.and_eq_true, beq_iff_eq, not_and] at h1 h2
    by_cases ht : rm = true ∧ t = mAbs
    · have : ¬ t' = t := fun h' => h1 ht.1 (h'.trans ht.2)
      simp [ht, this]
      intro h'; exact absurd (h'.trans ht.2.symm) this
    · simp only [cnt_cons, if_neg ht]; omega
  | case5 t' k c s j d h1 h2 h3 h4 ih =>
    rw [cnt_cons, ih]
    simp only [Bool.and_eq_true, beq_iff_eq, not_and] at h1 h2
    by_cases ht : rm = true ∧ t = mAbs
    · have : ¬ s = t := fun h' => h2 ht.1 (h'.trans ht.2)
      simp [ht, this]
      intro h'; exact absurd (h'.trans ht.2.symm) this
    · simp only [cnt_cons, if_neg ht]; omega
  | case6 t' k c s j d h1 h2 h3 h4 ih =>
    have hts : t' = s := by omega
    subst hts
    rw [cnt_cons, ih]
    simp only [Bool.and_eq_true, beq_iff_eq, not_and] at h1 h2
    by_cases ht : rm = true ∧ t = mAbs
    · have : ¬ t' = t := fun h' => h1 ht.1 (h'.trans ht.2)
      simp [ht]
      intro h'; exact absurd (h'.trans ht.2.symm) this
    · simp only [cnt_cons, if_neg ht]
      by_cases h5 : t' = t <;> simp [h5] ; omega
  | case7 t' k c h ih =>
    simp only [Bool.and_eq_true, beq_iff_eq] at h
    rw [ih]
    by_cases ht : t = mAbs
    · simp [h.1, ht]
    · have : ¬ t' = t := fun h' => ht (h' ▸ h.2)
      simp [ht, this]
  | case8 t' k c h1 ih =>
    rw [cnt_cons, ih]
    simp only [Bool.and_eq_true, beq_iff_eq, not_and] at h1
    by_cases ht : rm = true ∧ t = mAbs
    · have : ¬ t' = t := fun h' => h1 ht.1 (h'.trans ht.2)
      simp [ht]
      intro h'; exact absurd (h'.trans ht.2.symm) this
    · simp only [cnt_cons, cnt_nil, if_neg ht]; omega
  | case9 s j d h ih =>
    simp only [Bool.and_eq_true, beq_iff_eq] at h
    rw [ih]
    by_cases ht : t = mAbs
    · simp [h.1, ht]
    · have : ¬ s = t := fun h' => ht (h' ▸ h.2)
      simp [ht, this]
  | case10 s j d h1 ih =>
    rw [cnt_cons, ih]
    simp only [Bool.and_eq_true, beq_iff_eq, not_and] at h1
    by_cases ht : rm = true ∧ t = mAbs
    · have : ¬ s = t := fun h' => h1 ht.1 (h'.trans ht.2)
      simp [ht]
      intro h'; exact absurd (h'.trans ht.2.symm) this
    · simp only [cnt_cons, cnt_nil, if_neg ht]; omega

theorem merge_keys_sub (rm : Bool) (mAbs : Nat) (c d : Counter) :
    ∀ t ∈ keys (merge rm mAbs c d), t ∈ keys c ∨ t ∈ keys d := by
  fun_induction merge rm mAbs c d <;>
    simp_all [keys] <;> grind

theorem merge_pos (rm : Bool) (mAbs : Nat) (c d : Counter)
    (hc : ∀ e ∈ c, 0 < e.2) (hd : ∀ e ∈ d, 0 < e.2) : ∀ e ∈ merge rm mAbs c d, 0 < e.2 := by
  fun_induction merge rm mAbs c d <;> simp_all <;> grind

theorem merge_sorted (rm : Bool) (mAbs : Nat) (c d : Counter)
    (hc : (keys c).Pairwise (· < ·)) (hd : (keys d).Pairwise (· < ·)) :
    (keys (merge rm mAbs c d)).Pairwise (· < ·) := by
  have key := merge_keys_sub rm mAbs
  fun_induction merge rm mAbs c d with
  | case1 => simp [keys]
  | case2 t' k c s j d h ih => exact ih (List.pairwise_cons.1 hc).2 hd
  | case3 t' k c s j d _ h ih => exact ih hc (List.pairwise_cons.1 hd).2
  | case4 t' k c s j d h1 h2 h3 ih =>
    obtain ⟨hc1, hc2⟩ := List.pairwise_cons.1 hc
    obtain ⟨hd1, hd2⟩ := List.pairwise_cons.1 hd
    refine List.pairwise_cons.2 ⟨fun x hx => ?_, ih hc2 hd⟩
    rcases key _ _ x hx with h | h
    · exact hc1 x h
    · rcases List.mem_cons.1 h with rfl | h
      · exact h3
      · exact Nat.lt_trans h3 (hd1 x h)
  | case5 t' k c s j d h1 h2 h3 h4 ih =>
    obtain ⟨hc1, hc2⟩ := List.pairwise_cons.1 hc
    obtain ⟨hd1, hd2⟩ := List.pairwise_cons.1 hd
    refine List.pairwise_cons.2 ⟨fun x hx => ?_, ih hc hd2⟩
    rcases key _ _ x hx with h | h
    · rcases List.mem_cons.1 h with rfl | h
      · exact h4
      · exact Nat.lt_trans h4 (hc1 x h)
    · exact hd1 x h
  | case6 t' k c s j d h1 h2 h3 h4 ih =>
    obtain ⟨hc1, hc2⟩ := List.pairwise_cons.1 hc
    obtain ⟨hd1, hd2⟩ := List.pairwise_cons.1 hd
    have hts : t' = s := by omega
    refine List.pairwise_cons.2 ⟨fun x hx => ?_, ih hc2 hd2⟩
    rcases key _ _ x hx with h | h
    · exact hts ▸ hc1 x h
    · exact hd1 x h
  | case7 t' k c h ih => exact ih (List.pairwise_cons.1 hc).2 hd
  | case8 t' k c h1 ih =>
    obtain ⟨hc1, hc2⟩ := List.pairwise_cons.1 hc
    refine List.pairwise_cons.2 ⟨fun x hx => ?_, ih hc2 hd⟩
    rcases key _ _ x hx with h | h
    · exact hc1 x h
    · simp [keys] at h
  | case9 s j d h ih => exact ih hc (List.pairwise_cons.1 hd).2
  | case10 s j d h1 ih =>
    obtain ⟨hd1, hd2⟩ := List.pairwise_cons.1 hd
    refine List.pairwise_cons.2 ⟨fun x hx => ?_, ih hc hd2⟩
    rcases key _ _ x hx with h | h
    · simp [keys] at h
    · exact hd1 x h

theorem merge_ok (rm : Bool) (mAbs : Nat) {c d : Counter} (hc : Ok c) (hd : Ok d) :
    Ok (merge rm mAbs c d) :=
  ⟨merge_sorted rm mAbs c d hc.sorted hd.sorted, merge_pos rm mAbs c d hc.pos hd.pos⟩

theorem length_eq_card {c : Counter} (h : Ok c) : c.length = (keys c).toFinset.card := by
  rw [List.toFinset_card_of_nodup]
  · simp [keys]
  · exact h.sorted.imp Nat.ne_of_lt

theorem merge_length {rm : Bool} {mAbs : Nat} {c d : Counter} (hc : Ok c) (hd : Ok d)
    (hm : mAbs ∈ keys c) (hrm : rm = true → mAbs ∉ keys d) :
    (merge rm mAbs c d).length =
      c.length + ((keys d).filter (fun s => s ∉ keys c)).length - (if rm then 1 else 0) := by
  classical
  rw [length_eq_card (merge_ok rm mAbs hc hd), length_eq_card hc]
  have hdn : ((keys d).filter (fun s => s ∉ keys c)).Nodup :=
    (hd.sorted.imp Nat.ne_of_lt).filter _
  rw [← List.toFinset_card_of_nodup hdn]
  have hset : ∀ t, t ∈ keys (merge rm mAbs c d) ↔ ¬ (rm = true ∧ t = mAbs) ∧ (t ∈ keys c ∨ t ∈ keys d) := by
    intro t
    rw [mem_keys_iff (merge_ok rm mAbs hc hd), merge_cnt, mem_keys_iff hc, mem_keys_iff hd]
    split
    · simp_all
    · rename_i h; simp [h]; omega
  have hdisj : Disjoint (keys c).toFinset ((keys d).filter (fun s => s ∉ keys c)).toFinset := by
    rw [Finset.disjoint_left]; intro x; simp; tauto
  rw [← Finset.card_union_of_disjoint hdisj]
  cases rm with
  | false =>
    simp only [Bool.false_eq_true, if_false, Nat.sub_zero]
    congr 1
    ext t
    have := hset t
    simp only [List.mem_toFinset, Finset.mem_union, List.mem_filter, decide_eq_true_eq, this]
    simp; tauto
  | true =>
    simp only [if_true]
    rw [← Finset.card_erase_of_mem (a := mAbs) (by simp [hm])]
    congr 1
    ext t
    have := hset t
    simp only [List.mem_toFinset, Finset.mem_erase, Finset.mem_union, List.mem_filter,
      decide_eq_true_eq, this]
    simp; tauto

theorem cnt_set {c : Counter} (h : Ok c) {i k a} (hi : i < c.length) (hget : c[i] = (a, k)) (hk : 1 < k) :
    Ok (c.set i (a, k - 1)) ∧ ∀ t, cnt (c.set i (a, k - 1)) t = cnt c t - (if t = a then 1 else 0) := by
  have hsplit : c = c.take i ++ (a, k) :: c.drop (i + 1) := by
    conv_lhs => rw [← List.take_append_drop i c, List.drop_eq_getElem_cons hi, hget]
  have hset : c.set i (a, k - 1) = c.take i ++ (a, k - 1) :: c.drop (i + 1) :=
    List.set_eq_take_append_cons_drop.trans (by simp [hi])
  constructor
  · constructor
    · have hs := h.sorted
      rw [hsplit] at hs
      rw [hset]
      simpa [keys] using hs
    · intro e he
      rw [hset] at he
      simp only [List.mem_append, List.mem_cons] at he
      rcases he with he | rfl | he
      · exact h.pos e (List.mem_of_mem_take he)
      · simp only; omega
      · exact h.pos e (List.mem_of_mem_drop he)
  · intro t
    have hca : cnt c a = k := cnt_of_mem h (by rw [← hget]; exact List.getElem_mem hi)
    have hc : ∀ t, cnt c t = cnt (c.take i) t + ((if a = t then k else 0) + cnt (c.drop (i + 1)) t) := by
      intro t
      conv_lhs => rw [hsplit]
      rw [cnt_append, cnt_cons]
    rw [hset, cnt_append, cnt_cons, hc t]
    by_cases hta : a = t
    · subst hta; simp; omega
    · have : t ≠ a := fun h => hta h.symm
      simp [hta, this]

/-- Decomposing a task removes one occurrence of it from the counter and adds the
method's subtasks; the precomputed array size is right. -/
theorem updM_spec {c d : Counter} (hc : Ok c) (hd : Ok d) {a} (ha : 0 < cnt c a) :
    ∃ r, updM c d a = some r ∧ Ok r ∧
      ∀ t, cnt r t = cnt c t + cnt d t - (if t = a then 1 else 0) := by
  have hnew : countNew (keys c) (keys d) 0 = some ((keys d).filter (fun s => s ∉ keys c)).length :=
    countNew_spec hc.sorted _ _ hd.sorted (le_refl _) (fun _ _ i hi => by omega)
  have hmem : a ∈ keys c := (mem_keys_iff hc).2 ha
  rcases indexOf_keys hc a with ⟨hn, _⟩ | ⟨i, k, hi, hidx, hget, hcnt⟩
  · exact absurd hmem hn
  have hik : c[((i : Int)).toNat]? = some (a, k) := by simp [hi, hget]
  have hnn : ¬ ((i : Int) < 0) := by omega
  have hk : 0 < k := by omega
  -- subtask position
  obtain ⟨inM, hinM, hinM'⟩ : ∃ inM, indexOf (keys d) 0 ((keys d).length - 1) a = some inM ∧
      (inM < 0 ↔ a ∉ keys d) := by
    rcases indexOf_keys hd a with ⟨hn, h⟩ | ⟨j, k', hj, hidx', hget', _⟩
    · exact ⟨-1, h, by simp [hn]⟩
    · refine ⟨j, hidx', ?_⟩
      have : a ∈ keys d := List.mem_map.2 ⟨d[j], List.getElem_mem hj, by rw [hget']⟩
      simp [this]
  set rm : Bool := k == 1 && decide (inM < 0) with hrm
  have hrmd : rm = true → a ∉ keys d := by
    intro h; simp only [hrm, Bool.and_eq_true, decide_eq_true_eq] at h; exact hinM'.1 h.2
  have hlen := merge_length hc hd hmem hrmd
  have hok := merge_ok rm a hc hd
  have hval : updM c d a =
      (if rm then some (merge rm a c d) else
        (indexOf (keys (merge rm a c d)) 0 ((keys (merge rm a c d)).length - 1) a).bind fun index =>
        if index < 0 then none else
        ((merge rm a c d)[index.toNat]?).bind fun e =>
          some ((merge rm a c d).set index.toNat (e.1, e.2 - 1))) := by
    unfold updM
    simp only [hnew, hidx, hinM, Option.bind_eq_bind, Option.bind_some, hnn, if_false, hik, ← hrm, hlen]
    simp
  rw [hval]
  cases hb : rm with
  | true =>
    rw [hb] at hok
    refine ⟨merge true a c d, by simp, hok, fun t => ?_⟩
    rw [merge_cnt]
    have hk1 : k = 1 := by
      have := hb; simp only [hrm, Bool.and_eq_true, beq_iff_eq] at this; exact this.1
    have hd0 : cnt d a = 0 := cnt_eq_zero (hrmd hb)
    by_cases ht : t = a
    · subst ht; simp; omega
    · simp [ht]
  | false =>
    rw [hb] at hok
    have hcm : cnt (merge false a c d) a = k + cnt d a := by rw [merge_cnt]; simp; omega
    have hk2 : 1 < k + cnt d a := by
      have hor : ¬ (k = 1 ∧ a ∉ keys d) := by
        rintro ⟨h1, h2⟩
        have : rm = true := by simp [hrm, h1, hinM'.2 h2]
        rw [this] at hb; simp at hb
      by_cases hk1 : k = 1
      · have : a ∈ keys d := by by_contra hh; exact hor ⟨hk1, hh⟩
        have := (mem_keys_iff hd).1 this
        omega
      · omega
    rcases indexOf_keys hok a with ⟨hn, _⟩ | ⟨j, k', hj, hidx', hget', hcnt'⟩
    · exact absurd ((mem_keys_iff hok).2 (by omega)) hn
    have hjn : ¬ ((j : Int) < 0) := by omega
    have hk' : k' = k + cnt d a := by omega
    obtain ⟨hok', hcnt''⟩ := cnt_set hok hj hget' (by omega)
    refine ⟨_, ?_, hok', fun t => ?_⟩
    · simp [hidx', hj, hget']
    · rw [hcnt'', merge_cnt]; simp

theorem takeWhile_eq_replicate (x : Nat) (xs : List Nat) :
    xs.takeWhile (· == x) = List.replicate (xs.takeWhile (· == x)).length x := by
  rw [List.eq_replicate_iff]
  refine ⟨rfl, fun b hb => ?_⟩
  induction xs with
  | nil => simp at hb
  | cons y ys ih =>
    by_cases hy : y = x
    · rw [List.takeWhile_cons_of_pos (by simpa using hy)] at hb
      rcases List.mem_cons.1 hb with rfl | hb
      · exact hy
      · exact ih hb
    · rw [List.takeWhile_cons_of_neg (by simpa using hy)] at hb
      simp at hb

/-- Compressing a sorted list gives an ordered counter with the right counts. -/
theorem compress_spec (l : List Nat) (h : l.Pairwise (· ≤ ·)) :
    Ok (compress l) ∧ (∀ t, cnt (compress l) t = l.count t) := by
  fun_induction compress l with
  | case1 => exact ⟨⟨by simp [keys], by simp⟩, fun t => by simp⟩
  | case2 x xs j ih =>
    obtain ⟨h1, h2⟩ := List.pairwise_cons.1 h
    obtain ⟨hok, hcnt⟩ := ih (h2.sublist (List.drop_sublist _ _))
    have hsplit : xs = List.replicate j x ++ xs.drop j := by
      conv_lhs => rw [← List.takeWhile_append_dropWhile (p := (· == x)) (l := xs)]
      rw [takeWhile_eq_replicate]
      congr 1
      conv_rhs => rw [← List.takeWhile_append_dropWhile (p := (· == x)) (l := xs)]
      rw [List.drop_left']
      rfl
    have hge : ∀ y ∈ xs.drop j, x < y := by
      intro y hy
      have hle := h1 y (List.mem_of_mem_drop hy)
      rcases Nat.lt_or_eq_of_le hle with h | h
      · exact h
      · exfalso
        have hd : xs.drop j = xs.dropWhile (· == x) := by
          conv_lhs => rw [← List.takeWhile_append_dropWhile (p := (· == x)) (l := xs)]
          rw [List.drop_left']
          rfl
        have hs : (xs.drop j).Pairwise (· ≤ ·) := h2.sublist (List.drop_sublist _ _)
        cases hdw : xs.drop j with
        | nil => rw [hdw] at hy; simp at hy
        | cons z zs =>
          rw [hdw] at hy hs
          have hz : ¬ (z == x) = true := by
            have := List.head?_dropWhile_not (· == x) xs
            rw [← hd, hdw] at this
            simpa using this
          have hzx : x ≤ z := h1 z (List.mem_of_mem_drop (by rw [hdw]; simp))
          have hzy : z ≤ y := by
            rcases List.mem_cons.1 hy with rfl | hy'
            · exact Nat.le_refl _
            · exact (List.pairwise_cons.1 hs).1 y hy'
          simp only [beq_iff_eq] at hz
          omega
    have hkeys : ∀ y ∈ keys (compress (xs.drop j)), x < y := fun y hy => by
      have := (mem_keys_iff hok).1 hy
      rw [hcnt] at this
      exact hge y (List.count_pos_iff.1 this)
    refine ⟨⟨?_, ?_⟩, fun t => ?_⟩
    · simp only [keys, List.map_cons]
      exact List.pairwise_cons.2 ⟨hkeys, hok.sorted⟩
    · intro e he
      rcases List.mem_cons.1 he with rfl | he
      · simp only; omega
      · exact hok.pos e he
    · rw [cnt_cons, hcnt, List.count_cons]
      conv_rhs => rw [hsplit]
      rw [List.count_append, List.count_replicate]
      by_cases hxt : x = t
      · subst hxt; simp; omega
      · simp [hxt]

end Verif.TaskCounter
