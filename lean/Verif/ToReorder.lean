import Verif.ToTransSim

/-! # What `reorderTasks` computes for totally ordered methods -/

namespace Verif.Sas

open Verif.Htn Relation

/-- The order constraints contain each pair of consecutive subtasks, and only pairs of earlier and later subtasks. -/
structure ChainOrd (n : Nat) (ord : List (Nat × Nat)) (tot : List Nat) : Prop where
  perm : tot.Perm (List.range n)
  cons : ∀ i a b : Nat, tot[i]? = some a → tot[i + 1]? = some b → (a, b) ∈ ord
  pos : ∀ o ∈ ord, ∃ i j : Nat, i < j ∧ tot[i]? = some o.1 ∧ tot[j]? = some o.2

/-- The constraints of a totally ordered method. -/
theorem chainOrd_of {P : Problem} (hP : P.WF) {tot : Nat → List Nat} (ht : TotOK P tot) {m : Nat} (hm : m < P.numMethods) :
    ChainOrd (P.sub m).length (P.ord m) (tot m) := by
  obtain ⟨hperm, hpw⟩ := ht m hm
  obtain ⟨rank, hrank⟩ := hP.ord_acyclic m hm
  have hex : ∀ x, x < (P.sub m).length → ∃ k : Nat, (tot m)[k]? = some x := fun x hx =>
    List.mem_iff_getElem?.1 (hperm.mem_iff.2 (by simpa using hx))
  have hrk : ∀ i j a b : Nat, i < j → (tot m)[i]? = some a → (tot m)[j]? = some b → rank a < rank b := by
    intro i j a b hij ha hb
    obtain ⟨hi, rfl⟩ := List.getElem?_eq_some_iff.1 ha
    obtain ⟨hj, rfl⟩ := List.getElem?_eq_some_iff.1 hb
    exact transGen_rank hrank (List.pairwise_iff_getElem.1 hpw i j hi hj hij)
  have hlt : ∀ i j a b : Nat, rank a < rank b → (tot m)[i]? = some a → (tot m)[j]? = some b → i < j := by
    intro i j a b hr ha hb
    by_contra hn
    rcases Nat.lt_or_ge j i with h | h
    · have := hrk j i b a h hb ha
      omega
    · obtain rfl : i = j := by omega
      rw [ha] at hb
      cases hb
      omega
  refine ⟨hperm, fun i a b ha hb => ?_, fun o ho => ?_⟩
  · have hg : TransGen (P.OrdRel m) a b := by
      obtain ⟨hi, rfl⟩ := List.getElem?_eq_some_iff.1 ha
      obtain ⟨hj, rfl⟩ := List.getElem?_eq_some_iff.1 hb
      exact List.pairwise_iff_getElem.1 hpw i (i + 1) hi hj (by omega)
    obtain ⟨c, hc, hcb⟩ := TransGen.head'_iff.1 hg
    obtain ⟨k, hk⟩ := hex c (hP.ord_lt m hm _ _ hc).2
    have h1 := hlt i k a c (hrank _ _ hc) ha hk
    rcases reflTransGen_iff_eq_or_transGen.1 hcb with rfl | hcb
    · exact hc
    · have h2 := hlt k (i + 1) c b (transGen_rank hrank hcb) hk hb
      omega
  · obtain ⟨h1, h2⟩ := hP.ord_lt m hm o.1 o.2 ho
    obtain ⟨i, hi⟩ := hex _ h1
    obtain ⟨j, hj⟩ := hex _ h2
    exact ⟨i, j, hlt i j _ _ (hrank _ _ ho) hi hj, hi, hj⟩

theorem scanSubs_not_mem {k x : Nat} : ∀ {l : List Nat}, k ∉ l → scanSubs k x l = (false, decide (x ∈ l)) := by
  intro l
  induction l with
  | nil => intro _; simp [scanSubs]
  | cons y r ih =>
    intro h
    rw [List.mem_cons, not_or] at h
    rw [scanSubs, if_neg h.1]
    split
    · next hx => simp [hx]
    · next hx =>
      rw [ih h.2]
      simp [hx]

theorem scanSubs_self {k : Nat} : ∀ {l : List Nat}, k ∈ l → (scanSubs k k l).1 = true := by
  intro l
  induction l with
  | nil => intro h; cases h
  | cons y r ih =>
    intro h
    rw [scanSubs]
    split
    · rfl
    · next hne =>
      exact ih (by simpa [hne] using h)

theorem ChainOrd.notAlone {n : Nat} {ord : List (Nat × Nat)} {tot : List Nat} (h : ChainOrd n ord tot) {j k i : Nat} (hj : j < n)
    (hi : tot[i]? = some k) : notAlone ord (tot.take j) k = !decide (i = j) := by
  have hlen : tot.length = n := by simpa using h.perm.length_eq
  have hnd : tot.Nodup := h.perm.nodup_iff.2 List.nodup_range
  have hinj : ∀ a b x : Nat, tot[a]? = some x → tot[b]? = some x → a = b := by
    intro a b x ha hb
    obtain ⟨h1, e1⟩ := List.getElem?_eq_some_iff.1 ha
    obtain ⟨h2, e2⟩ := List.getElem?_eq_some_iff.1 hb
    exact (List.Nodup.getElem_inj_iff hnd).1 (e1.trans e2.symm)
  have hmem : ∀ a x : Nat, tot[a]? = some x → (x ∈ tot.take j ↔ a < j) := by
    intro a x ha
    rw [List.mem_iff_getElem?]
    constructor
    · rintro ⟨b, hb⟩
      rw [List.getElem?_take] at hb
      split at hb
      · next hbj =>
        have := hinj a b x ha hb
        omega
      · cases hb
    · intro haj
      exact ⟨a, by rw [List.getElem?_take, if_pos haj, ha]⟩
  have hin : i < n := by
    rw [← hlen]
    exact (List.getElem?_eq_some_iff.1 hi).1
  rcases Nat.lt_trichotomy i j with hlt | rfl | hgt
  · rw [show (!decide (i = j)) = true by simp; omega, Sas.notAlone, List.any_eq_true]
    obtain ⟨b, hb⟩ : ∃ b, tot[i + 1]? = some b := ⟨_, List.getElem?_eq_getElem (by omega)⟩
    refine ⟨(k, b), h.cons i k b hi hb, ?_⟩
    simp only [scanSubs_self ((hmem i k hi).2 hlt), Bool.true_or]
  · rw [show (!decide (i = i)) = false by simp, Sas.notAlone, List.any_eq_false]
    intro o ho
    have hk : k ∉ tot.take i := fun hk => by have := (hmem i k hi).1 hk; omega
    simp only [scanSubs_not_mem hk]
    by_cases e : o.2 = k
    · obtain ⟨a, b, hab, h1, h2⟩ := h.pos o ho
      rw [e] at h2
      have := hinj b i k h2 hi
      have : o.1 ∈ tot.take i := (hmem a o.1 h1).2 (by omega)
      simp [this]
    · simp [e]
  · rw [show (!decide (i = j)) = true by simp; omega, Sas.notAlone, List.any_eq_true]
    obtain ⟨i', rfl⟩ : ∃ i', i = i' + 1 := ⟨i - 1, by omega⟩
    obtain ⟨a, ha⟩ : ∃ a, tot[i']? = some a := ⟨_, List.getElem?_eq_getElem (by omega)⟩
    refine ⟨(a, k), h.cons i' a k ha hi, ?_⟩
    have hk : k ∉ tot.take j := fun hk => by have := (hmem _ k hi).1 hk; omega
    have ha' : a ∉ tot.take j := fun hk => by have := (hmem _ a ha).1 hk; omega
    simp only [scanSubs_not_mem hk]
    simp [ha']

/-- `subs` is the order of the subtasks. -/
theorem ChainOrd.chooseSubs {n : Nat} {ord : List (Nat × Nat)} {tot : List Nat} (h : ChainOrd n ord tot) : ∀ d j, j + d = n →
    chooseSubs n ord d (tot.take j) = some tot := by
  have hlen : tot.length = n := by simpa using h.perm.length_eq
  intro d
  induction d with
  | zero =>
    intro j hj
    rw [Sas.chooseSubs, List.take_of_length_le (by omega)]
  | succ d ih =>
    intro j hj
    obtain ⟨x, hx⟩ : ∃ x, tot[j]? = some x := ⟨_, List.getElem?_eq_getElem (by omega)⟩
    have hfind : (List.range n).find? (fun k => !Sas.notAlone ord (tot.take j) k) = some x := by
      have hxn : x ∈ List.range n := h.perm.mem_iff.1 (List.mem_of_getElem? hx)
      have hall : ∀ k ∈ List.range n, (!Sas.notAlone ord (tot.take j) k) = decide (k = x) := by
        intro k hk
        obtain ⟨i, hi⟩ := List.mem_iff_getElem?.1 (h.perm.mem_iff.2 hk)
        rw [h.notAlone (by omega) hi, Bool.not_not]
        congr 1
        apply propext
        constructor
        · rintro rfl
          rw [hx] at hi
          exact (Option.some.inj hi).symm
        · rintro rfl
          obtain ⟨h1, e1⟩ := List.getElem?_eq_some_iff.1 hi
          obtain ⟨h2, e2⟩ := List.getElem?_eq_some_iff.1 hx
          exact (List.Nodup.getElem_inj_iff (h.perm.nodup_iff.2 List.nodup_range)).1 (e1.trans e2.symm)
      cases hf : (List.range n).find? (fun k => !Sas.notAlone ord (tot.take j) k) with
      | none =>
        have := List.find?_eq_none.1 hf x hxn
        rw [hall x hxn] at this
        simp at this
      | some y =>
        have h1 := List.find?_some hf
        rw [hall y (List.mem_of_find?_eq_some hf)] at h1
        simp at h1
        rw [h1]
    rw [Sas.chooseSubs, hfind]
    have : tot.take j ++ [x] = tot.take (j + 1) := by rw [List.take_add_one, hx]; rfl
    simp only [this]
    exact ih (j + 1) (by omega)

/-- `subTasksInOrder` of a totally ordered method with several subtasks, whatever the numbering of its subtasks. -/
theorem reorder_eq {P : Problem} (hP : P.WF) {tot : Nat → List Nat} (ht : TotOK P tot) {m : Nat} (hm : m < P.numMethods)
    (h2 : 2 ≤ (P.sub m).length) : reorder P.prim (P.sub m) (P.ord m) =
      some ⟨(tot m).map fun x => (P.sub m)[(P.sub m).length - 1 - x]?.getD 0, leadPrims P.prim (P.sub m)⟩ := by
  have hc := chainOrd_of hP ht hm
  have hlen : (tot m).length = (P.sub m).length := by simpa using hc.perm.length_eq
  have hne : P.ord m ≠ [] := by
    intro h
    have := hc.cons 0 ((tot m)[0]'(by omega)) ((tot m)[1]'(by omega)) (List.getElem?_eq_getElem _) (List.getElem?_eq_getElem _)
    rw [h] at this
    cases this
  rw [reorder, if_neg (by omega), if_neg hne]
  have := hc.chooseSubs (P.sub m).length 0 (by omega)
  rw [List.take_zero] at this
  rw [this]

/-- It is the reverse order iff the numbering is symmetric (as far as different tasks are concerned). -/
theorem reorder_reverse_iff {P : Problem} (hP : P.WF) {tot : Nat → List Nat} (ht : TotOK P tot) {m : Nat} (hm : m < P.numMethods) :
    (∃ r, reorder P.prim (P.sub m) (P.ord m) = some r ∧ r.order = (tasksOf P tot m).reverse) ↔
    ∀ i j x y : Nat, i + j + 1 = (P.sub m).length → (tot m)[i]? = some x → (tot m)[j]? = some y →
      (P.sub m)[(P.sub m).length - 1 - x]? = (P.sub m)[y]? := by
  have hc := chainOrd_of hP ht hm
  have hlen : (tot m).length = (P.sub m).length := by simpa using hc.perm.length_eq
  have hlt : ∀ i x : Nat, (tot m)[i]? = some x → x < (P.sub m).length := fun i x hx => by
    simpa using hc.perm.mem_iff.1 (List.mem_of_getElem? hx)
  rcases Nat.lt_or_ge (P.sub m).length 2 with h2 | h2
  · have hne := hP.sub_ne m hm
    have h1 : (P.sub m).length = 1 := by have := List.length_pos_iff.2 hne; omega
    have htot : tot m = [0] := by
      have := hc.perm
      rw [h1] at this
      exact List.perm_singleton.1 this
    obtain ⟨t, hts⟩ := List.length_eq_one_iff.1 h1
    constructor
    · intro _ i j x y hij hx hy
      have := hlt i x hx
      have := hlt j y hy
      congr 1
      omega
    · intro _
      refine ⟨⟨P.sub m, leadPrims P.prim (P.sub m)⟩, by rw [reorder, if_pos (by omega)], ?_⟩
      simp [tasksOf, htot, hts]
  · rw [reorder_eq hP ht hm h2]
    simp only [Option.some.injEq, exists_eq_left']
    constructor
    · intro h i j x y hij hx hy
      have h1 := congrArg (fun l : List Nat => l[i]?) h
      simp only [tasksOf] at h1
      rw [List.getElem?_map, hx, List.getElem?_reverse (by rw [List.length_map]; omega), List.getElem?_map, List.length_map,
        show (tot m).length - 1 - i = j by omega, hy] at h1
      simp only [Option.map_some, Option.some.injEq] at h1
      have hx' := hlt i x hx
      have hy' := hlt j y hy
      rw [List.getElem?_eq_getElem (by omega), List.getElem?_eq_getElem hy'] at h1 ⊢
      simpa using h1
    · intro h
      apply List.ext_getElem?
      intro i
      rcases Nat.lt_or_ge i (P.sub m).length with hi | hi
      · obtain ⟨x, hx⟩ : ∃ x, (tot m)[i]? = some x := ⟨_, List.getElem?_eq_getElem (by omega)⟩
        obtain ⟨y, hy⟩ : ∃ y, (tot m)[(P.sub m).length - 1 - i]? = some y := ⟨_, List.getElem?_eq_getElem (by omega)⟩
        have := h i ((P.sub m).length - 1 - i) x y (by omega) hx hy
        simp only [tasksOf]
        rw [List.getElem?_map, hx, List.getElem?_reverse (by rw [List.length_map]; omega), List.getElem?_map, List.length_map,
          show (tot m).length - 1 - i = (P.sub m).length - 1 - i by omega, hy]
        simp only [Option.map_some, this]
      · rw [List.getElem?_eq_none (by rw [List.length_map]; omega), List.getElem?_eq_none (by
          rw [List.length_reverse, tasksOf, List.length_map]; omega)]

/-- The number of leading subtasks (in the order of numbering) that are actions. -/
theorem leadOf_eq {P : Problem} (hP : P.WF) {tot : Nat → List Nat} (ht : TotOK P tot) {m : Nat} (hm : m < P.numMethods) :
    leadOf P m = ((P.sub m).takeWhile P.prim).length := by
  rcases Nat.lt_or_ge (P.sub m).length 2 with h2 | h2
  · rw [leadOf, reorder, if_pos (by omega)]
    rfl
  · rw [leadOf, reorder_eq hP ht hm h2]
    rfl

/-- Subtasks numbered in their order: the tasks are reversed, and the leading tasks are actions. -/
theorem reorder_range {P : Problem} (hP : P.WF) {tot : Nat → List Nat} (ht : TotOK P tot) {m : Nat} (hm : m < P.numMethods)
    (hr : tot m = List.range (P.sub m).length) :
    tasksOf P tot m = P.sub m ∧ (∃ r, reorder P.prim (P.sub m) (P.ord m) = some r ∧ r.order = (P.sub m).reverse) ∧
    leadOf P m ≤ (P.sub m).length ∧ ∀ t ∈ (tasksOf P tot m).take (leadOf P m), P.prim t = true := by
  have hto : tasksOf P tot m = P.sub m := by
    apply List.ext_getElem?
    intro i
    rw [tasksOf, hr, List.getElem?_map]
    rcases Nat.lt_or_ge i (P.sub m).length with hi | hi
    · rw [List.getElem?_range hi, Option.map_some, List.getElem?_eq_getElem hi, Option.getD_some]
    · rw [List.getElem?_eq_none (by simpa using hi), List.getElem?_eq_none hi]
      rfl
  refine ⟨hto, ?_, ?_, ?_⟩
  · have key : ∃ r, reorder P.prim (P.sub m) (P.ord m) = some r ∧ r.order = (tasksOf P tot m).reverse := ?_
    · rw [hto] at key
      exact key
    refine (reorder_reverse_iff hP ht hm).2 fun i j x y hij hx hy => ?_
    rw [hr] at hx hy
    rw [List.getElem?_range (by omega)] at hx hy
    simp only [Option.some.injEq] at hx hy
    congr 1
    omega
  · rw [leadOf_eq hP ht hm]
    exact (List.takeWhile_prefix _).length_le
  · intro t h
    rw [hto, leadOf_eq hP ht hm] at h
    have := List.prefix_iff_eq_take.1 (List.takeWhile_prefix P.prim (l := P.sub m))
    rw [← this] at h
    have hall := List.all_takeWhile (p := P.prim) (l := P.sub m)
    exact List.all_eq_true.1 hall t h

end Verif.Sas
