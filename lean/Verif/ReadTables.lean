import Verif.ReadMain

/-! # The tables that are computed after reading -/

namespace Verif.ReadFile

open Verif.Parse Verif.Ordering Verif.TaskCounter Verif.IntUtil

/-! ## `stToMethod` -/

theorem stepSt_spec (m : Nat) : ∀ (sts : List Nat) (tab : Nat → List Nat) (num : Nat → Int), (∀ t, (tab t).Pairwise (· < ·)) → (∀ t, ∀ x ∈ tab t, x ≤ m) →
    ∃ tab' num', stepSt m sts tab num = some (tab', num') ∧ (∀ t, tab' t = if t ∈ sts ∧ m ∉ tab t then tab t ++ [m] else tab t) ∧
      ∀ t, num' t - ((tab' t).length : Int) = num t - ((tab t).length : Int) - (sts.count t : Int)
  | [], tab, num, _, _ => ⟨tab, num, rfl, fun t => by simp, fun t => by simp⟩
  | st :: sts, tab, num, h1, h2 => by
    obtain ⟨r, e, hr⟩ := indexOf_spec (tab st) ((h1 st).imp Nat.le_of_lt) m 0 (((tab st).length : Int) - 1) le_rfl (by omega)
    by_cases hm : m ∈ tab st
    · have hr0 : ¬ r < 0 := by
        rcases hr with ⟨-, hr⟩ | ⟨hr, -, -⟩
        · obtain ⟨i, hi, hv⟩ := List.mem_iff_getElem.1 hm
          exact absurd (by rw [List.getElem?_eq_getElem hi, hv]) (hr i (by omega) (by omega))
        · omega
      obtain ⟨tab', num', e', q1, q2⟩ := stepSt_spec m sts tab (fun t => if t = st then num t - 1 else num t) h1 h2
      refine ⟨tab', num', by rw [stepSt, e]; simp only [if_neg hr0, e'], fun t => ?_, fun t => ?_⟩
      · rw [q1]
        by_cases ht : t = st
        · subst ht
          rw [if_neg (by tauto), if_neg (by tauto)]
        · simp [ht]
      · rw [q2, List.count_cons]
        by_cases ht : t = st
        · subst ht
          simp only [if_true, beq_self_eq_true]
          push_cast
          omega
        · rw [if_neg ht, if_neg (by simpa using fun h => ht h.symm)]
          simp
    · have hr0 : r < 0 := by
        rcases hr with ⟨hr, -⟩ | ⟨-, -, hr⟩
        · omega
        · exact absurd (List.mem_of_getElem? hr) hm
      have h1' : ∀ t, (if t = st then tab t ++ [m] else tab t).Pairwise (· < ·) := by
        intro t
        split_ifs with ht
        · subst ht
          refine List.pairwise_append.2 ⟨h1 t, by simp, fun x hx y hy => ?_⟩
          rw [List.mem_singleton] at hy
          subst hy
          exact lt_of_le_of_ne (h2 t x hx) fun h => hm (h ▸ hx)
        · exact h1 t
      have h2' : ∀ t, ∀ x ∈ (if t = st then tab t ++ [m] else tab t), x ≤ m := by
        intro t x hx
        split_ifs at hx
        · rcases List.mem_append.1 hx with hx | hx
          · exact h2 t x hx
          · rw [List.mem_singleton] at hx
            omega
        · exact h2 t x hx
      obtain ⟨tab', num', e', q1, q2⟩ := stepSt_spec m sts (fun t => if t = st then tab t ++ [m] else tab t) num h1' h2'
      refine ⟨tab', num', by rw [stepSt, e]; simp only [if_pos hr0, e'], fun t => ?_, fun t => ?_⟩
      · rw [q1]
        by_cases ht : t = st
        · subst ht
          rw [if_pos rfl, if_neg (by simp), if_pos ⟨by simp, hm⟩]
        · simp [ht]
      · rw [q2, List.count_cons]
        by_cases ht : t = st
        · subst ht
          simp only [if_true, beq_self_eq_true, List.length_append, List.length_singleton]
          push_cast
          omega
        · rw [if_neg ht, if_neg (by simpa using fun h => ht h.symm)]
          simp

/-- The methods, counted from `m`, that have `t` as subtask. -/
def occIn (t : Nat) : Nat → List (List Nat) → List Nat
  | _, [] => []
  | m, s :: ss => if t ∈ s then m :: occIn t (m + 1) ss else occIn t (m + 1) ss

theorem mem_occIn {t : Nat} : ∀ {m : Nat} {ss : List (List Nat)} {x : Nat}, x ∈ occIn t m ss ↔ ∃ i, x = m + i ∧ ∃ s, ss[i]? = some s ∧ t ∈ s
  | _, [], x => by simp [occIn]
  | m, s :: ss, x => by
    have ih := mem_occIn (t := t) (m := m + 1) (ss := ss) (x := x)
    constructor
    · intro h
      rw [occIn] at h
      split_ifs at h with hs
      · rcases List.mem_cons.1 h with rfl | h
        · exact ⟨0, rfl, s, rfl, hs⟩
        · obtain ⟨i, rfl, s', h1, h2⟩ := ih.1 h
          exact ⟨i + 1, by omega, s', by simpa using h1, h2⟩
      · obtain ⟨i, rfl, s', h1, h2⟩ := ih.1 h
        exact ⟨i + 1, by omega, s', by simpa using h1, h2⟩
    · rintro ⟨i, rfl, s', h1, h2⟩
      rw [occIn]
      rcases i with _ | i
      · simp only [List.getElem?_cons_zero, Option.some.injEq] at h1
        subst h1
        rw [if_pos h2]
        simp
      · have : m + (i + 1) ∈ occIn t (m + 1) ss := (mem_occIn).2 ⟨i, by omega, s', by simpa using h1, h2⟩
        split_ifs
        · exact List.mem_cons_of_mem _ this
        · exact this

theorem occIn_sorted {t : Nat} : ∀ {m : Nat} {ss : List (List Nat)}, (occIn t m ss).Pairwise (· < ·)
  | _, [] => by simp [occIn]
  | m, s :: ss => by
    rw [occIn]
    split_ifs
    · refine List.pairwise_cons.2 ⟨fun x hx => ?_, occIn_sorted⟩
      obtain ⟨i, rfl, -⟩ := mem_occIn.1 hx
      omega
    · exact occIn_sorted

theorem fillSt_spec : ∀ (ss : List (List Nat)) (m : Nat) (tab : Nat → List Nat) (num : Nat → Int), (∀ t, (tab t).Pairwise (· < ·)) → (∀ t, ∀ x ∈ tab t, x < m) →
    ∃ tab' num', fillSt m ss tab num = some (tab', num') ∧ (∀ t, tab' t = tab t ++ occIn t m ss) ∧
      ∀ t, num' t - ((tab' t).length : Int) = num t - ((tab t).length : Int) - (ss.map fun s => (s.count t : Int)).sum
  | [], m, tab, num, _, _ => ⟨tab, num, rfl, fun t => by simp [occIn], fun t => by simp⟩
  | s :: ss, m, tab, num, h1, h2 => by
    obtain ⟨tab1, num1, e1, q1, q2⟩ := stepSt_spec m s tab num h1 fun t x hx => (h2 t x hx).le
    have hm : ∀ t, m ∉ tab t := fun t hx => absurd (h2 t m hx) (lt_irrefl m)
    have q1' : ∀ t, tab1 t = if t ∈ s then tab t ++ [m] else tab t := fun t => by rw [q1]; simp [hm t]
    obtain ⟨tab2, num2, e2, q3, q4⟩ := fillSt_spec ss (m + 1) tab1 num1 (fun t => by
        rw [q1']
        split_ifs
        · refine List.pairwise_append.2 ⟨h1 t, by simp, fun x hx y hy => ?_⟩
          rw [List.mem_singleton] at hy
          exact hy ▸ h2 t x hx
        · exact h1 t) (fun t x hx => by
        rw [q1'] at hx
        split_ifs at hx
        · rcases List.mem_append.1 hx with hx | hx
          · exact (h2 t x hx).trans (Nat.lt_succ_self m)
          · rw [List.mem_singleton] at hx
            omega
        · exact (h2 t x hx).trans (Nat.lt_succ_self m))
    refine ⟨tab2, num2, ?_, fun t => ?_, fun t => ?_⟩
    · show (stepSt m s tab num).bind _ = _
      rw [e1]
      exact e2
    · rw [q3, q1', occIn]
      split_ifs <;> simp
    · rw [q4, q2]
      simp only [List.map_cons, List.sum_cons]
      omega

/-- The methods that have a task as subtask, and their number. -/
theorem stToMethod_spec (ss : List (List Nat)) : ∃ tab num, stToMethod ss = some (tab, num) ∧ ∀ t, tab t = occIn t 0 ss ∧ num t = ((tab t).length : Int) := by
  obtain ⟨tab, num, e, q1, q2⟩ := fillSt_spec ss 0 (fun _ => []) (fun t => (ss.map fun s => (s.count t : Int)).sum) (fun t => by simp) (fun t x hx => by simp at hx)
  refine ⟨tab, num, e, fun t => ⟨by rw [q1]; simp, ?_⟩⟩
  have := q2 t
  simp only [List.length_nil] at this
  push_cast at this
  omega

/-! ## Methods of tasks, first and last subtasks -/

/-- The methods, counted from `i`, for a task. -/
def methFrom (t : Nat) : Nat → List MethM → List Nat
  | _, [] => []
  | i, m :: ms => if t = m.head then i :: methFrom t (i + 1) ms else methFrom t (i + 1) ms

theorem pushMethods_spec : ∀ (ms : List MethM) (i : Nat) (t : Nat → List Nat) (x : Nat), pushMethods i ms t x = t x ++ methFrom x i ms
  | [], i, t, x => by simp [pushMethods, methFrom]
  | m :: ms, i, t, x => by
    rw [pushMethods, pushMethods_spec ms, methFrom]
    split_ifs <;> simp

theorem mem_methFrom {t : Nat} : ∀ {i : Nat} {ms : List MethM} {x : Nat}, x ∈ methFrom t i ms ↔ ∃ j, x = i + j ∧ ∃ m, ms[j]? = some m ∧ m.head = t
  | _, [], x => by simp [methFrom]
  | i, m :: ms, x => by
    have ih := mem_methFrom (t := t) (i := i + 1) (ms := ms) (x := x)
    constructor
    · intro h
      rw [methFrom] at h
      split_ifs at h with hs
      · rcases List.mem_cons.1 h with rfl | h
        · exact ⟨0, rfl, m, rfl, hs.symm⟩
        · obtain ⟨j, rfl, m', h1, h2⟩ := ih.1 h
          exact ⟨j + 1, by omega, m', by simpa using h1, h2⟩
      · obtain ⟨j, rfl, m', h1, h2⟩ := ih.1 h
        exact ⟨j + 1, by omega, m', by simpa using h1, h2⟩
    · rintro ⟨j, rfl, m', h1, h2⟩
      rw [methFrom]
      rcases j with _ | j
      · simp only [List.getElem?_cons_zero, Option.some.injEq] at h1
        subst h1
        rw [if_pos h2.symm]
        simp
      · have : i + (j + 1) ∈ methFrom t (i + 1) ms := mem_methFrom.2 ⟨j, by omega, m', by simpa using h1, h2⟩
        split_ifs
        · exact List.mem_cons_of_mem _ this
        · exact this

theorem methFrom_sorted {t : Nat} : ∀ {i : Nat} {ms : List MethM}, (methFrom t i ms).Pairwise (· < ·)
  | _, [] => by simp [methFrom]
  | i, m :: ms => by
    rw [methFrom]
    split_ifs
    · refine List.pairwise_cons.2 ⟨fun x hx => ?_, methFrom_sorted⟩
      obtain ⟨j, rfl, -⟩ := mem_methFrom.1 hx
      omega
    · exact methFrom_sorted

theorem markFirsts_iff {ord : List (Nat × Nat)} {i : Nat} : markFirsts ord i = true ↔ ∀ j, (j, i) ∉ ord := by
  have : ∀ (l : List (Nat × Nat)) (f : Nat → Bool), l.foldl (fun f o => fun i => if i = o.2 then false else f i) f i = true ↔ f i = true ∧ ∀ j, (j, i) ∉ l := by
    intro l
    induction l with
    | nil => simp
    | cons o l ih =>
      intro f
      obtain ⟨a, b⟩ := o
      rw [List.foldl_cons, ih]
      by_cases h : i = b
      · subst h
        simp only [if_true, List.mem_cons, Prod.mk.injEq, and_true, not_or]
        constructor
        · intro h; exact absurd h.1 (by decide)
        · intro h; exact absurd rfl (h.2 a).1
      · simp [h]
  exact (this ord fun _ => true).trans (by simp)

theorem markLasts_iff {ord : List (Nat × Nat)} {i : Nat} : markLasts ord i = true ↔ ∀ j, (i, j) ∉ ord := by
  have : ∀ (l : List (Nat × Nat)) (f : Nat → Bool), l.foldl (fun f o => fun i => if i = o.1 then false else f i) f i = true ↔ f i = true ∧ ∀ j, (i, j) ∉ l := by
    intro l
    induction l with
    | nil => simp
    | cons o l ih =>
      intro f
      obtain ⟨a, b⟩ := o
      rw [List.foldl_cons, ih]
      by_cases h : i = a
      · subst h
        simp only [if_true, List.mem_cons, Prod.mk.injEq, true_and, not_or]
        constructor
        · intro h; exact absurd h.1 (by decide)
        · intro h; exact absurd rfl (h.2 b).1
      · simp [h]
  exact (this ord fun _ => true).trans (by simp)

theorem countSucc_eq (ord : List (Nat × Nat)) (i : Nat) : countSucc ord i = (ord.filter fun o => o.1 == i).length := by
  have : ∀ (l : List (Nat × Nat)) (f : Nat → Nat), l.foldl (fun f o => fun i => if i = o.1 then f i + 1 else f i) f i = f i + (l.filter fun o => o.1 == i).length := by
    intro l
    induction l with
    | nil => simp
    | cons o l ih =>
      intro f
      rw [List.foldl_cons, ih, List.filter_cons]
      by_cases h : i = o.1
      · rw [if_pos h, if_pos (by simp [h])]
        simp only [List.length_cons]
        omega
      · rw [if_neg h, if_neg (by simpa using fun h' => h h'.symm)]
  exact (this ord fun _ => 0).trans (by simp)

end Verif.ReadFile
