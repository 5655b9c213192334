import Mathlib.Logic.Relation
import Mathlib.Data.Finset.Card
import Mathlib.Data.List.Nodup
import Mathlib.Tactic.SplitIfs

/-! # Model of `Model::computeTransitiveChangeOfMethodOrderings` (src/Model.cpp 3009-3081)

`vector<vector<bool>>` matrices are modelled by functions; an ordering constraint that refers to
a position outside the method would be an access outside the matrix, outcome `none`. -/

namespace Verif.Ordering

open Relation

abbrev Mat := Nat → Nat → Bool

/-- `trans[x][y] = b`. -/
def Mat.set (M : Mat) (x y : Nat) (b : Bool) : Mat :=
  fun x' y' => if x' = x ∧ y' = y then b else M x' y'

/-- `for x ... for y ...` -/
def cells (n : Nat) : List (Nat × Nat) :=
  (List.range n).flatMap fun x => (List.range n).map fun y => (x, y)

/-- Initialisation (src/Model.cpp 3011-3018). -/
def initMat (n : Nat) : List (Nat × Nat) → Mat → Option Mat
  | [], M => some M
  | (x, y) :: os, M => if x < n ∧ y < n then initMat n os (M.set x y true) else none

/-- One round of the closure loop for fixed `k` (src/Model.cpp 3021-3023); in place. -/
def closeRound (n k : Nat) (M : Mat) : Mat :=
  (cells n).foldl (fun M c => if M c.1 k && M k c.2 then M.set c.1 c.2 true else M) M

/-- The closure loop (src/Model.cpp 3020-3023). -/
def close (n : Nat) (M : Mat) : Mat := (List.range n).foldl (fun M k => closeRound n k M) M

/-- The reduction loop (src/Model.cpp 3025-3039): reads `trans`, writes `transRed`. -/
def reduce (n : Nat) (T : Mat) : Mat :=
  (List.range n).foldl (fun R k =>
    (cells n).foldl (fun R c => if T c.1 k && T k c.2 then R.set c.1 c.2 false else R) R) T

/-- `numSucc` of a row, `numPrec` of a column (src/Model.cpp 3049-3064). -/
def numSucc (n : Nat) (T : Mat) (x : Nat) : Nat := ((List.range n).filter fun y => T x y).length

def numPrec (n : Nat) (T : Mat) (y : Nat) : Nat := ((List.range n).filter fun x => T x y).length

/-- The ordering list that is written back (src/Model.cpp 3046-3054, 3077-3080). -/
def outPairs (n : Nat) (T : Mat) : List (Nat × Nat) :=
  (List.range n).flatMap fun x => ((List.range n).filter fun y => T x y).map fun y => (x, y)

/-- The flags of the instance (src/Model.h 136-138). -/
structure Flags where
  totallyOrdered : Bool
  uniquePaths : Bool
  parallelSequences : Bool
deriving DecidableEq, Repr

/-- Update of the flags (src/Model.cpp 3044-3075). -/
def updFlags (n : Nat) (T : Mat) (isInit : Bool) (F : Flags) : Flags :=
  let notOneSuccessor := ((List.range n).filter fun x => numSucc n T x != 1).length
  let notZeroOrOneSuccessor := (List.range n).any fun x => decide (1 < numSucc n T x)
  let notOnePredecessor := ((List.range n).filter fun y => numPrec n T y != 1).length
  let notZeroOrOnePredecessor := (List.range n).any fun y => decide (1 < numPrec n T y)
  if 1 < notOneSuccessor ∨ 1 < notOnePredecessor then
    if notZeroOrOneSuccessor || !isInit then
      if notZeroOrOnePredecessor || !isInit then ⟨false, false, false⟩
      else ⟨false, false, F.parallelSequences⟩
    else ⟨false, F.uniquePaths, F.parallelSequences⟩
  else F

/-- `computeTransitiveChangeOfMethodOrderings(closure, i)` (src/Model.cpp 3009-3081). -/
def transitiveChange (closure : Bool) (n : Nat) (ord : List (Nat × Nat)) (isInit : Bool) (F : Flags) :
    Option (List (Nat × Nat) × Flags) :=
  match initMat n ord (fun _ _ => false) with
  | none => none
  | some M =>
    if closure then some (outPairs n (close n M), F)
    else some (outPairs n (reduce n (close n M)), updFlags n (reduce n (close n M)) isInit F)

/-- The loop over all methods when reading the input (src/Model.cpp 1860-1894): number of
subtasks, orderings and whether the decomposed task is the initial one. -/
def readAll : List (Nat × List (Nat × Nat) × Bool) → Flags → Option (List (List (Nat × Nat)) × Flags)
  | [], F => some ([], F)
  | (n, ord, isInit) :: ms, F =>
    match transitiveChange false n ord isInit F with
    | none => none
    | some (o, F') =>
      match readAll ms F' with
      | none => none
      | some (os, F'') => some (o :: os, F'')

/-! ## Correctness of the closure -/

theorem mem_cells {n : Nat} {c : Nat × Nat} : c ∈ cells n ↔ c.1 < n ∧ c.2 < n := by
  obtain ⟨x, y⟩ := c
  simp [cells]

/-- Paths with intermediate positions below `k`. -/
def Via (R : Nat → Nat → Prop) : Nat → Nat → Nat → Prop
  | 0, x, y => R x y
  | k + 1, x, y => Via R k x y ∨ (Via R k x k ∧ Via R k k y)

variable {R : Nat → Nat → Prop}

theorem Via.to_k {k x} (h : Via R (k + 1) x k) : Via R k x k := by
  rcases h with h | h
  · exact h
  · exact h.1

theorem Via.from_k {k y} (h : Via R (k + 1) k y) : Via R k k y := by
  rcases h with h | h
  · exact h
  · exact h.2

theorem Via.trans {k x j y} (h1 : Via R k x j) (h2 : Via R k j y) (hj : j < k) : Via R k x y := by
  induction k generalizing x j y with
  | zero => omega
  | succ k ih =>
    rcases Nat.lt_succ_iff_lt_or_eq.1 hj with hj | rfl
    · rcases h1 with h1 | ⟨h1, h1'⟩ <;> rcases h2 with h2 | ⟨h2, h2'⟩
      · exact .inl (ih h1 h2 hj)
      · exact .inr ⟨ih h1 h2 hj, h2'⟩
      · exact .inr ⟨h1, ih h1' h2 hj⟩
      · exact .inr ⟨h1, h2'⟩
    · exact .inr ⟨h1.to_k, h2.from_k⟩

theorem Via.transGen {k x y} (h : Via R k x y) : TransGen R x y := by
  induction k generalizing x y with
  | zero => exact .single h
  | succ k ih =>
    rcases h with h | ⟨h1, h2⟩
    · exact ih h
    · exact (ih h1).trans (ih h2)

theorem Via.of_rel {k x y} (h : R x y) : Via R k x y := by
  induction k with
  | zero => exact h
  | succ k ih => exact .inl ih

theorem via_iff {n x y} (hR : ∀ x y, R x y → x < n ∧ y < n) : Via R n x y ↔ TransGen R x y := by
  refine ⟨Via.transGen, fun h => ?_⟩
  induction h with
  | single h => exact .of_rel h
  | tail _ h ih => exact ih.trans (.of_rel h) (hR _ _ h).1

/-- One round of the closure, in place. -/
theorem closeRound_spec {n k : Nat} {M : Mat} (hM : ∀ x y, M x y = true ↔ Via R k x y)
    (hR : ∀ x y, Via R (k + 1) x y → x < n ∧ y < n) :
    ∀ x y, closeRound n k M x y = true ↔ Via R (k + 1) x y := by
  have key : ∀ (l : List (Nat × Nat)) (N : Mat),
      (∀ x y, Via R k x y → N x y = true) → (∀ x y, N x y = true → Via R (k + 1) x y) →
      ∀ x y, (l.foldl (fun M c => if M c.1 k && M k c.2 then M.set c.1 c.2 true else M) N) x y = true ↔
        N x y = true ∨ ((x, y) ∈ l ∧ Via R (k + 1) x y) := by
    intro l
    induction l with
    | nil => intro N _ _ x y; simp
    | cons c l ih =>
      intro N h1 h2 x y
      have hx : N c.1 k = true ↔ Via R k c.1 k := ⟨fun h => (h2 _ _ h).to_k, h1 _ _⟩
      have hy : N k c.2 = true ↔ Via R k k c.2 := ⟨fun h => (h2 _ _ h).from_k, h1 _ _⟩
      simp only [List.foldl_cons, List.mem_cons]
      by_cases hc : (N c.1 k && N k c.2) = true
      · rw [if_pos hc]
        have hv : Via R (k + 1) c.1 c.2 := by
          rw [Bool.and_eq_true, hx, hy] at hc
          exact .inr hc
        rw [ih]
        · simp only [Mat.set]
          constructor
          · rintro (h | h)
            · split_ifs at h with he
              · right; rw [he.1, he.2]; exact ⟨.inl rfl, hv⟩
              · exact .inl h
            · exact .inr ⟨.inr h.1, h.2⟩
          · rintro (h | ⟨rfl | hm, h⟩)
            · left; split_ifs
              · rfl
              · exact h
            · left; simp
            · exact .inr ⟨hm, h⟩
        · intro x' y' h
          simp only [Mat.set]; split_ifs
          · rfl
          · exact h1 _ _ h
        · intro x' y' h
          simp only [Mat.set] at h
          split_ifs at h with he
          · rw [he.1, he.2]; exact hv
          · exact h2 _ _ h
      · rw [if_neg hc, ih N h1 h2]
        constructor
        · rintro (h | h)
          · exact .inl h
          · exact .inr ⟨.inr h.1, h.2⟩
        · rintro (h | ⟨rfl | hm, h⟩)
          · exact .inl h
          · left
            rcases h with h | h
            · exact h1 _ _ h
            · rw [← hx, ← hy, ← Bool.and_eq_true] at h
              exact absurd h hc
          · exact .inr ⟨hm, h⟩
  intro x y
  unfold closeRound
  rw [key (cells n) M (fun x y h => (hM x y).2 h) (fun x y h => .inl ((hM x y).1 h))]
  constructor
  · rintro (h | h)
    · exact .inl ((hM x y).1 h)
    · exact h.2
  · intro h
    exact .inr ⟨mem_cells.2 (hR x y h), h⟩

theorem close_spec {n : Nat} {M : Mat} (hR : ∀ x y, R x y → x < n ∧ y < n)
    (hM : ∀ x y, M x y = true ↔ R x y) : ∀ x y, close n M x y = true ↔ TransGen R x y := by
  have hb : ∀ k x y, Via R k x y → x < n ∧ y < n := by
    intro k x y h
    have := h.transGen
    exact ⟨(TransGen.head'_iff.1 this).elim fun _ h => (hR _ _ h.1).1,
      (TransGen.tail'_iff.1 this).elim fun _ h => (hR _ _ h.2).2⟩
  have key : ∀ m x y, ((List.range m).foldl (fun M k => closeRound n k M) M) x y = true ↔ Via R m x y := by
    intro m
    induction m with
    | zero => exact hM
    | succ m ih =>
      rw [List.range_succ, List.foldl_append]
      exact closeRound_spec ih (hb _)
  intro x y
  unfold close
  rw [key n, via_iff hR]

theorem reduce_spec (n : Nat) (T : Mat) (x y : Nat) (hx : x < n) (hy : y < n) :
    reduce n T x y = true ↔ T x y = true ∧ ∀ k < n, ¬ (T x k = true ∧ T k y = true) := by
  have inner : ∀ (k : Nat) (l : List (Nat × Nat)) (N : Mat),
      (l.foldl (fun R c => if T c.1 k && T k c.2 then R.set c.1 c.2 false else R) N) x y = true ↔
        N x y = true ∧ ((x, y) ∈ l → ¬ (T x k = true ∧ T k y = true)) := by
    intro k l
    induction l with
    | nil => intro N; simp
    | cons c l ih =>
      intro N
      simp only [List.foldl_cons, ih, List.mem_cons]
      by_cases hc : (T c.1 k && T k c.2) = true
      · rw [if_pos hc]
        simp only [Mat.set]
        by_cases he : x = c.1 ∧ y = c.2
        · rw [if_pos he]
          rw [Bool.and_eq_true] at hc
          constructor
          · rintro ⟨h, _⟩; simp at h
          · rintro ⟨_, h⟩
            exact absurd (he.1 ▸ he.2 ▸ hc) (h (.inl (by rw [he.1, he.2])))
        · rw [if_neg he]
          have : (x, y) ≠ c := fun h => he (by rw [← h]; exact ⟨rfl, rfl⟩)
          simp [this]
      · rw [if_neg hc]
        rw [Bool.and_eq_true] at hc
        constructor
        · rintro ⟨h1, h2⟩
          refine ⟨h1, ?_⟩
          rintro (rfl | h)
          · exact hc
          · exact h2 h
        · rintro ⟨h1, h2⟩
          exact ⟨h1, fun h => h2 (.inr h)⟩
  have outer : ∀ (l : List Nat) (N : Mat),
      (l.foldl (fun R k => (cells n).foldl
        (fun R c => if T c.1 k && T k c.2 then R.set c.1 c.2 false else R) R) N) x y = true ↔
        N x y = true ∧ ∀ k ∈ l, ¬ (T x k = true ∧ T k y = true) := by
    intro l
    induction l with
    | nil => intro N; simp
    | cons k l ih =>
      intro N
      simp only [List.foldl_cons, ih, inner, List.mem_cons, forall_eq_or_imp]
      have hm : (x, y) ∈ cells n := mem_cells.2 ⟨hx, hy⟩
      constructor
      · rintro ⟨⟨h1, h2⟩, h3⟩; exact ⟨h1, h2 hm, h3⟩
      · rintro ⟨h1, h2, h3⟩; exact ⟨⟨h1, fun _ => h2⟩, h3⟩
  unfold reduce
  rw [outer]
  simp [List.mem_range]

theorem initMat_spec {n : Nat} {os : List (Nat × Nat)} {M M' : Mat} (h : initMat n os M = some M') :
    (∀ o ∈ os, o.1 < n ∧ o.2 < n) ∧ ∀ x y, M' x y = true ↔ (x, y) ∈ os ∨ M x y = true := by
  induction os generalizing M with
  | nil => simp only [initMat, Option.some.injEq] at h; subst h; simp
  | cons o os ih =>
    obtain ⟨a, b⟩ := o
    simp only [initMat] at h
    split_ifs at h with hb
    obtain ⟨h1, h2⟩ := ih h
    refine ⟨fun o ho => ?_, fun x y => ?_⟩
    · rcases List.mem_cons.1 ho with rfl | ho
      · exact hb
      · exact h1 o ho
    · rw [h2 x y]
      simp only [Mat.set, List.mem_cons, Prod.mk.injEq]
      by_cases he : x = a ∧ y = b
      · simp [he]
      · rw [if_neg he]; simp [he]

theorem initMat_total {n : Nat} {os : List (Nat × Nat)} (M : Mat) (h : ∀ o ∈ os, o.1 < n ∧ o.2 < n) :
    ∃ M', initMat n os M = some M' := by
  induction os generalizing M with
  | nil => exact ⟨M, rfl⟩
  | cons o os ih =>
    obtain ⟨a, b⟩ := o
    simp only [initMat]
    rw [if_pos (h _ List.mem_cons_self)]
    exact ih _ fun o ho => h o (List.mem_cons_of_mem _ ho)

theorem mem_outPairs {n : Nat} {T : Mat} {x y : Nat} :
    (x, y) ∈ outPairs n T ↔ x < n ∧ y < n ∧ T x y = true := by
  simp only [outPairs, List.mem_flatMap, List.mem_range, List.mem_map, List.mem_filter, Prod.mk.injEq]
  constructor
  · rintro ⟨x', hx, y', ⟨hy, ht⟩, rfl, rfl⟩; exact ⟨hx, hy, ht⟩
  · rintro ⟨hx, hy, ht⟩; exact ⟨x, hx, y, ⟨hy, ht⟩, rfl, rfl⟩

theorem nodup_outPairs (n : Nat) (T : Mat) : (outPairs n T).Nodup := by
  unfold outPairs
  rw [List.nodup_flatMap]
  refine ⟨fun x _ => ?_, ?_⟩
  · exact List.Nodup.map (fun a b h => (Prod.mk.inj h).2) (List.nodup_range.filter _)
  · refine List.nodup_range.imp ?_
    intro a b hab
    simp only [Function.onFun, List.Disjoint]
    intro p hp hp'
    obtain ⟨_, _, rfl⟩ := List.mem_map.1 hp
    obtain ⟨_, _, he⟩ := List.mem_map.1 hp'
    exact hab (Prod.mk.inj he).1.symm

/-- The pairs of a list as a relation. -/
def Rel (os : List (Nat × Nat)) (x y : Nat) : Prop := (x, y) ∈ os

/-- The covering pairs of a finite strict order generate it. -/
theorem cover_generates {n : Nat} {T : Nat → Nat → Prop}
    (htr : ∀ x y z, T x y → T y z → T x z) (hirr : ∀ x, ¬ T x x) :
    ∀ x y, T x y → TransGen (fun x y => T x y ∧ ∀ k < n, ¬ (T x k ∧ T k y)) x y := by
  classical
  intro x y
  generalize hc : ((Finset.range n).filter fun k => T x k ∧ T k y).card = c
  induction c using Nat.strong_induction_on generalizing x y with
  | _ c ih =>
    intro hxy
    by_cases hk : ∃ k < n, T x k ∧ T k y
    · obtain ⟨k, hk, h1, h2⟩ := hk
      have hin : k ∈ (Finset.range n).filter fun k => T x k ∧ T k y := by
        simp [hk, h1, h2]
      refine TransGen.trans (b := k) (ih _ ?_ x k rfl h1) (ih _ ?_ k y rfl h2)
      · rw [← hc]
        refine Finset.card_lt_card (Finset.ssubset_iff_of_subset ?_ |>.2 ⟨k, hin, ?_⟩)
        · intro j hj
          simp only [Finset.mem_filter, Finset.mem_range] at hj ⊢
          exact ⟨hj.1, hj.2.1, htr _ _ _ hj.2.2 h2⟩
        · simp only [Finset.mem_filter, not_and]
          exact fun _ _ => hirr k
      · rw [← hc]
        refine Finset.card_lt_card (Finset.ssubset_iff_of_subset ?_ |>.2 ⟨k, hin, ?_⟩)
        · intro j hj
          simp only [Finset.mem_filter, Finset.mem_range] at hj ⊢
          exact ⟨hj.1, htr _ _ _ h1 hj.2.1, hj.2.2⟩
        · simp only [Finset.mem_filter, not_and]
          exact fun _ h => absurd h (hirr k)
    · push Not at hk
      exact .single ⟨hxy, fun k hkn h => hk k hkn h.1 h.2⟩

/-- The output of the function in reduction mode: the covering pairs of the input order. -/
theorem reduction_out {n ord isInit F o F'} (h : transitiveChange false n ord isInit F = some (o, F')) :
    (∀ p ∈ ord, p.1 < n ∧ p.2 < n) ∧ o.Nodup ∧
      (∀ x y, (x, y) ∈ o ↔ TransGen (Rel ord) x y ∧ ∀ k, ¬ (TransGen (Rel ord) x k ∧ TransGen (Rel ord) k y)) ∧
      ∃ T : Mat, o = outPairs n T ∧ (∀ x y, x < n → y < n → (T x y = true ↔ (x, y) ∈ o)) ∧
        F' = updFlags n T isInit F := by
  unfold transitiveChange at h
  cases hM : initMat n ord (fun _ _ => false) with
  | none => simp [hM] at h
  | some M =>
    simp only [hM, Bool.false_eq_true, if_false, Option.some.injEq, Prod.mk.injEq] at h
    obtain ⟨rfl, rfl⟩ := h
    obtain ⟨hb, hM⟩ := initMat_spec hM
    have hR : ∀ x y, Rel ord x y → x < n ∧ y < n := fun x y h => hb (x, y) h
    have hT := close_spec (R := Rel ord) hR (M := M) (fun x y => by rw [hM]; simp [Rel])
    have hTb : ∀ x y, TransGen (Rel ord) x y → x < n ∧ y < n := by
      intro x y h
      exact ⟨(TransGen.head'_iff.1 h).elim fun _ h => (hR _ _ h.1).1,
        (TransGen.tail'_iff.1 h).elim fun _ h => (hR _ _ h.2).2⟩
    refine ⟨hb, nodup_outPairs _ _, fun x y => ?_, reduce n (close n M), rfl, ?_, rfl⟩
    · rw [mem_outPairs]
      constructor
      · rintro ⟨hx, hy, h⟩
        rw [reduce_spec _ _ _ _ hx hy, hT] at h
        refine ⟨h.1, fun k hk => h.2 k (hTb _ _ hk.1).2 ⟨(hT _ _).2 hk.1, (hT _ _).2 hk.2⟩⟩
      · rintro ⟨h1, h2⟩
        obtain ⟨hx, hy⟩ := hTb _ _ h1
        refine ⟨hx, hy, (reduce_spec _ _ _ _ hx hy).2 ⟨(hT _ _).2 h1, fun k _ hk => h2 k ?_⟩⟩
        exact ⟨(hT _ _).1 hk.1, (hT _ _).1 hk.2⟩
    · intro x y hx hy
      rw [mem_outPairs]; simp [hx, hy]

end Verif.Ordering
