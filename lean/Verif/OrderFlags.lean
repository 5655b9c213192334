import Verif.Ordering

/-! # What the degree counts say about the order -/

namespace Verif.Ordering

open Relation

/-- Strict order on positions below `n`. -/
structure SO (n : Nat) (T : Nat → Nat → Prop) : Prop where
  lt : ∀ x y, T x y → x < n ∧ y < n
  trans : ∀ x y z, T x y → T y z → T x z
  irr : ∀ x, ¬ T x x

/-- Covering pairs. -/
def Cov (T : Nat → Nat → Prop) (x y : Nat) : Prop := T x y ∧ ∀ k, ¬ (T x k ∧ T k y)

theorem SO.flip {n T} (h : SO n T) : SO n (fun x y => T y x) :=
  ⟨fun x y hxy => (h.lt _ _ hxy).symm, fun _ _ _ h1 h2 => h.trans _ _ _ h2 h1, h.irr⟩

theorem cov_flip {T : Nat → Nat → Prop} {x y} : Cov (fun x y => T y x) x y ↔ Cov T y x := by
  unfold Cov
  refine and_congr_right fun _ => forall_congr' fun k => not_congr and_comm

theorem SO.gen {n T} (h : SO n T) {x y} (hxy : T x y) : TransGen (Cov T) x y := by
  refine TransGen.mono ?_ _ _ (cover_generates (n := n) h.trans h.irr x y hxy)
  rintro a b ⟨h1, h2⟩
  exact ⟨h1, fun k hk => h2 k (h.lt _ _ hk.1).2 hk⟩

theorem SO.max_above {n T} (h : SO n T) : ∀ x < n, ∃ M < n, (x = M ∨ T x M) ∧ ∀ k, ¬ T M k := by
  classical
  intro x hx
  generalize hc : ((Finset.range n).filter fun k => T x k).card = c
  induction c using Nat.strong_induction_on generalizing x with
  | _ c ih =>
    by_cases hk : ∃ k, T x k
    · obtain ⟨k, hk⟩ := hk
      have hkn := (h.lt _ _ hk).2
      obtain ⟨M, hM, h1, h2⟩ := ih _ (by
        rw [← hc]
        refine Finset.card_lt_card (Finset.ssubset_iff_of_subset ?_ |>.2 ⟨k, ?_, ?_⟩)
        · intro j hj
          simp only [Finset.mem_filter, Finset.mem_range] at hj ⊢
          exact ⟨hj.1, h.trans _ _ _ hk hj.2⟩
        · simp [hkn, hk]
        · simp [h.irr k]) k hkn rfl
      refine ⟨M, hM, .inr ?_, h2⟩
      rcases h1 with rfl | h1
      · exact hk
      · exact h.trans _ _ _ hk h1
    · push Not at hk
      exact ⟨x, hx, .inl rfl, hk⟩

theorem filter_le_one {n : Nat} {p : Nat → Bool} :
    ((List.range n).filter p).length ≤ 1 ↔ ∀ a b, a < n → b < n → p a = true → p b = true → a = b := by
  have hnd : ((List.range n).filter p).Nodup := List.nodup_range.filter _
  have hmem : ∀ a, a ∈ (List.range n).filter p ↔ a < n ∧ p a = true := by simp
  generalize (List.range n).filter p = l at hnd hmem
  constructor
  · intro hl a b ha hb pa pb
    have h1 := (hmem a).2 ⟨ha, pa⟩
    have h2 := (hmem b).2 ⟨hb, pb⟩
    match l, hl with
    | [], _ => simp at h1
    | [c], _ => simp at h1 h2; rw [h1, h2]
    | _ :: _ :: _, hl => simp at hl
  · intro h
    match l with
    | [] => simp
    | [c] => simp
    | c :: d :: l =>
      exfalso
      have hc := (hmem c).1 (by simp)
      have hd := (hmem d).1 (by simp)
      have := h c d hc.1 hd.1 hc.2 hd.2
      subst this
      simp at hnd

theorem filter_pos {n : Nat} {p : Nat → Bool} :
    0 < ((List.range n).filter p).length ↔ ∃ a < n, p a = true := by
  rw [List.length_pos_iff_exists_mem]
  simp

/-- The number of positions without exactly one cover. -/
def exc (n : Nat) (T : Mat) : Nat := ((List.range n).filter fun x => numSucc n T x != 1).length

theorem total_of_degrees {n : Nat} {T : Nat → Nat → Prop} {C : Mat} (h : SO n T)
    (hC : ∀ x y, x < n → y < n → (C x y = true ↔ Cov T x y))
    (h1 : exc n C ≤ 1) (h2 : exc n (fun x y => C y x) ≤ 1) :
    ∀ x y, x < n → y < n → x ≠ y → T x y ∨ T y x := by
  -- only one element without successors
  have ns0 : ∀ {T : Nat → Nat → Prop} {C : Mat}, SO n T →
      (∀ x y, x < n → y < n → (C x y = true ↔ Cov T x y)) → ∀ M < n, (∀ k, ¬ T M k) → numSucc n C M = 0 := by
    intro T C h hC M hM hk
    by_contra hne
    obtain ⟨a, ha, hp⟩ := filter_pos.1 (Nat.pos_of_ne_zero hne)
    exact hk a ((hC M a hM ha).1 hp).1
  have uniq : ∀ {T : Nat → Nat → Prop} {C : Mat}, SO n T →
      (∀ x y, x < n → y < n → (C x y = true ↔ Cov T x y)) → exc n C ≤ 1 →
      ∀ M M', M < n → M' < n → (∀ k, ¬ T M k) → (∀ k, ¬ T M' k) → M = M' := by
    intro T C h hC h1 M M' hM hM' hk hk'
    exact filter_le_one.1 h1 M M' hM hM' (by simp [ns0 h hC M hM hk]) (by simp [ns0 h hC M' hM' hk'])
  have uniqS : ∀ x y y', Cov T x y → Cov T x y' → y = y' := by
    intro x y y' hy hy'
    have hx := (h.lt _ _ hy.1).1
    obtain ⟨M, hM, -, hk⟩ := h.max_above x hx
    have hs : numSucc n C x ≤ 1 := by
      by_contra hgt
      have := filter_le_one.1 h1 x M hx hM (by simp; omega) (by simp [ns0 h hC M hM hk])
      subst this
      exact hk y hy.1
    exact filter_le_one.1 hs y y' (h.lt _ _ hy.1).2 (h.lt _ _ hy'.1).2
      ((hC _ _ hx (h.lt _ _ hy.1).2).2 hy) ((hC _ _ hx (h.lt _ _ hy'.1).2).2 hy')
  have hmin : ∀ x < n, ∃ m < n, (x = m ∨ T m x) ∧ ∀ k, ¬ T k m := h.flip.max_above
  have uniqMin : ∀ M M', M < n → M' < n → (∀ k, ¬ T k M) → (∀ k, ¬ T k M') → M = M' :=
    uniq h.flip (fun x y hx hy => by rw [hC y x hy hx, cov_flip]) h2
  intro x y hx hy hne
  obtain ⟨m, hm, hmx, hmin_m⟩ := hmin x hx
  obtain ⟨m', hm', hmy, hmin_m'⟩ := hmin y hy
  obtain rfl := uniqMin m m' hm hm' hmin_m hmin_m'
  -- walk from the minimum to x
  have walk : ∀ z, ReflTransGen (Cov T) m z → y = z ∨ T z y ∨ T y z := by
    intro z hz
    induction hz with
    | refl =>
      rcases hmy with rfl | hmy
      · exact .inl rfl
      · exact .inr (.inl hmy)
    | tail _ hzz ih =>
      rename_i z z'
      rcases ih with rfl | ih | ih
      · exact .inr (.inr hzz.1)
      · obtain ⟨w, hw, hwy⟩ := TransGen.head'_iff.1 (h.gen ih)
        obtain rfl := uniqS _ _ _ hw hzz
        rcases reflTransGen_iff_eq_or_transGen.1 hwy with rfl | hwy
        · exact .inl rfl
        · right; left
          have : ∀ a b, TransGen (Cov T) a b → T a b := by
            intro a b hab
            induction hab with
            | single h => exact h.1
            | tail _ h' ih => exact h.trans _ _ _ ih h'.1
          exact this _ _ hwy
      · exact .inr (.inr (h.trans _ _ _ ih hzz.1))
  have hxm : ReflTransGen (Cov T) m x := by
    rcases hmx with rfl | hmx
    · exact .refl
    · exact (h.gen hmx).to_reflTransGen
  rcases walk x hxm with h' | h' | h'
  · exact absurd h'.symm hne
  · exact .inl h'
  · exact .inr h'

theorem degrees_of_total {n : Nat} {T : Nat → Nat → Prop} {C : Mat} (h : SO n T)
    (hC : ∀ x y, x < n → y < n → (C x y = true ↔ Cov T x y))
    (ht : ∀ x y, x < n → y < n → x ≠ y → T x y ∨ T y x) : exc n C ≤ 1 := by
  refine filter_le_one.2 ?_
  have key : ∀ a < n, (numSucc n C a != 1) = true → ∀ k, ¬ T a k := by
    intro a ha hne k hk
    obtain ⟨c, hc, -⟩ := TransGen.head'_iff.1 (h.gen hk)
    have hcn := (h.lt _ _ hc.1).2
    have h1 : 0 < numSucc n C a := filter_pos.2 ⟨c, hcn, (hC _ _ ha hcn).2 hc⟩
    have h2 : numSucc n C a ≤ 1 := by
      refine filter_le_one.2 fun b b' hb hb' hcb hcb' => ?_
      by_contra hbb
      have hcb := (hC _ _ ha hb).1 hcb
      have hcb' := (hC _ _ ha hb').1 hcb'
      rcases ht b b' hb hb' hbb with h' | h'
      · exact hcb'.2 b ⟨hcb.1, h'⟩
      · exact hcb.2 b' ⟨hcb'.1, h'⟩
    simp at hne; omega
  intro a b ha hb hpa hpb
  by_contra hab
  rcases ht a b ha hb hab with h' | h'
  · exact key a ha hpa b h'
  · exact key b hb hpb a h'

/-- All positions have at most one direct successor. -/
def AtMostOneSucc (T : Nat → Nat → Prop) : Prop := ∀ x y y', Cov T x y → Cov T x y' → y = y'

theorem anySucc_iff {n : Nat} {T : Nat → Nat → Prop} {C : Mat} (h : SO n T)
    (hC : ∀ x y, x < n → y < n → (C x y = true ↔ Cov T x y)) :
    ((List.range n).any fun x => decide (1 < numSucc n C x)) = false ↔ AtMostOneSucc T := by
  rw [List.any_eq_false]
  constructor
  · intro hh x y y' hy hy'
    have hx := (h.lt _ _ hy.1).1
    have hyn := (h.lt _ _ hy.1).2
    have hyn' := (h.lt _ _ hy'.1).2
    have := hh x (List.mem_range.2 hx)
    simp only [decide_eq_true_eq, Nat.not_lt] at this
    exact filter_le_one.1 this y y' hyn hyn' ((hC _ _ hx hyn).2 hy) ((hC _ _ hx hyn').2 hy')
  · intro hh x hx
    have hx := List.mem_range.1 hx
    simp only [decide_eq_true_eq, Nat.not_lt]
    refine filter_le_one.2 fun a b ha hb hca hcb => ?_
    exact hh x a b ((hC _ _ hx ha).1 hca) ((hC _ _ hx hb).1 hcb)

/-- Flags after one method, in terms of the order. -/
theorem updFlags_spec {n : Nat} {T : Nat → Nat → Prop} {C : Mat} (h : SO n T)
    (hC : ∀ x y, x < n → y < n → (C x y = true ↔ Cov T x y)) (isInit : Bool) (F : Flags) :
    let tot := ∀ x y, x < n → y < n → x ≠ y → T x y ∨ T y x
    let s1 := AtMostOneSucc T
    let p1 := AtMostOneSucc (fun x y => T y x)
    ((updFlags n C isInit F).totallyOrdered = true ↔ F.totallyOrdered = true ∧ tot) ∧
    ((updFlags n C isInit F).uniquePaths = true ↔ F.uniquePaths = true ∧ (tot ∨ (isInit = true ∧ s1))) ∧
    ((updFlags n C isInit F).parallelSequences = true ↔
      F.parallelSequences = true ∧ (tot ∨ (isInit = true ∧ (s1 ∨ p1)))) := by
  intro tot s1 p1
  have hCf : ∀ x y, x < n → y < n → (C y x = true ↔ Cov (fun x y => T y x) x y) :=
    fun x y hx hy => by rw [hC y x hy hx, cov_flip]
  have htot : (1 < exc n C ∨ 1 < exc n (fun x y => C y x)) ↔ ¬ tot := by
    constructor
    · intro hh ht
      have e1 := degrees_of_total h hC ht
      have e2 := degrees_of_total h.flip hCf (fun x y hx hy hne => (ht x y hx hy hne).symm)
      omega
    · intro hh
      by_contra hcon
      exact hh (total_of_degrees h hC (by omega) (by omega))
  have hs := anySucc_iff h hC
  have hp := anySucc_iff h.flip hCf
  have hu : updFlags n C isInit F =
      if 1 < exc n C ∨ 1 < exc n (fun x y => C y x) then
        if ((List.range n).any fun x => decide (1 < numSucc n C x)) || !isInit then
          if ((List.range n).any fun x => decide (1 < numSucc n (fun x y => C y x) x)) || !isInit then
            ⟨false, false, false⟩
          else ⟨false, false, F.parallelSequences⟩
        else ⟨false, F.uniquePaths, F.parallelSequences⟩
      else F := rfl
  rw [hu]
  change _ ↔ s1 at hs
  change _ ↔ p1 at hp
  clear_value tot s1 p1
  clear hu hCf
  generalize ((List.range n).any fun x => decide (1 < numSucc n C x)) = a at hs ⊢
  generalize ((List.range n).any fun x => decide (1 < numSucc n (fun x y => C y x) x)) = b at hp ⊢
  by_cases ht : tot
  · rw [if_neg (by rw [htot]; exact not_not.2 ht)]
    simp [ht]
  · rw [if_pos (htot.2 ht)]
    cases a <;> cases b <;> cases isInit <;> simp at hs hp <;> simp [ht, hs, hp]

end Verif.Ordering
