import Verif.Progression
import Verif.HtnLemmas
import Mathlib.Data.List.Dedup
import Mathlib.Algebra.BigOperators.Group.List.Basic

/-! # The candidate loop of `apply` and the successor graph -/

namespace Verif.Prog

open Verif.Htn Verif.TaskCounter Relation

/-- Successor relation of the heap. -/
def Edge (h : Heap) (u v : Nat) : Prop := ∃ st, h[u]? = some st ∧ v ∈ st.succs

theorem mem_succsOf {h : Heap} {u v : Nat} : v ∈ succsOf h u ↔ Edge h u v := by
  unfold succsOf Edge
  cases h[u]? with
  | none => simp
  | some st => simp

/-- `v` is reachable from a member of `S`. -/
def ReachFrom (h : Heap) (S : List Nat) (v : Nat) : Prop := ∃ x ∈ S, ReflTransGen (Edge h) x v

theorem candLoop_cons (h : Heap) (f p : Nat) (pf : List Nat) (x : Nat) (st done : List Nat) :
    candLoop h (f + 1) (p :: pf) (x :: st) done = candLoop h f ((p :: pf).erase x)
      (((succsOf h x).filter (fun y => !(x :: done).contains y)).reverse ++ st) (x :: done) := rfl

/-- Partial correctness of the candidate loop: exactly the candidates reachable from the
initial predecessor list are removed. -/
theorem candLoop_spec {h : Heap} {S : List Nat} {pf0 : List Nat} :
    ∀ (f : Nat) (pf st done r : List Nat), candLoop h f pf st done = some r →
      pf.Nodup →
      (∀ x ∈ st, ReachFrom h S x) → (∀ x ∈ done, ReachFrom h S x) →
      (∀ x, x ∈ pf → x ∈ pf0) → (∀ x ∈ pf0, x ∈ pf ∨ ReachFrom h S x) →
      (∀ x ∈ done, x ∉ pf) → (∀ x ∈ S, x ∈ st ∨ x ∈ done) →
      (∀ x ∈ done, ∀ y, Edge h x y → y ∈ st ∨ y ∈ done) →
      r.Nodup ∧ ∀ x, x ∈ r ↔ x ∈ pf0 ∧ ¬ ReachFrom h S x := by
  intro f
  induction f with
  | zero => intro pf st done r hr; simp [candLoop] at hr
  | succ f ih =>
    intro pf st done r hr hnd hst hdone hpf hpf0 hdis hS hcl
    match pf, st, hr with
    | [], st, hr =>
      simp only [candLoop, Option.some.injEq] at hr
      subst hr
      refine ⟨List.nodup_nil, fun x => ?_⟩
      constructor
      · intro hx; simp at hx
      · rintro ⟨h1, h2⟩
        rcases hpf0 x h1 with h | h
        · exact h
        · exact absurd h h2
    | p :: pf, [], hr =>
      simp only [candLoop, Option.some.injEq] at hr
      subst hr
      have hclosed : ∀ x, ReachFrom h S x → x ∈ done := by
        rintro x ⟨s, hs, hsx⟩
        induction hsx with
        | refl =>
          rcases hS s hs with h | h
          · simp at h
          · exact h
        | tail _ he ih =>
          rcases hcl _ ih _ he with h | h
          · simp at h
          · exact h
      refine ⟨hnd, fun x => ⟨fun hx => ⟨hpf x hx, fun hR => hdis x (hclosed x hR) hx⟩, ?_⟩⟩
      rintro ⟨h1, h2⟩
      rcases hpf0 x h1 with h | h
      · exact h
      · exact absurd h h2
    | p :: pf, x :: st, hr =>
      rw [candLoop_cons] at hr
      have hx := hst x List.mem_cons_self
      refine ih _ _ _ r hr (hnd.erase _) ?_ ?_ ?_ ?_ ?_ ?_ ?_
      · intro y hy
        simp only [List.mem_append, List.mem_reverse, List.mem_filter] at hy
        rcases hy with ⟨hy, _⟩ | hy
        · obtain ⟨s, hs, hsx⟩ := hx
          exact ⟨s, hs, hsx.tail (mem_succsOf.1 hy)⟩
        · exact hst y (List.mem_cons_of_mem _ hy)
      · intro y hy
        rcases List.mem_cons.1 hy with rfl | hy
        · exact hx
        · exact hdone y hy
      · intro y hy
        exact hpf y (List.mem_of_mem_erase hy)
      · intro y hy
        rcases hpf0 y hy with h | h
        · by_cases hyx : y = x
          · subst hyx; exact .inr hx
          · exact .inl ((List.mem_erase_of_ne hyx).2 h)
        · exact .inr h
      · intro y hy hm
        rcases List.mem_cons.1 hy with rfl | hy
        · exact (hnd.not_mem_erase) hm
        · exact hdis y hy (List.mem_of_mem_erase hm)
      · intro y hy
        rcases hS y hy with h | h
        · rcases List.mem_cons.1 h with rfl | h
          · exact .inr List.mem_cons_self
          · exact .inl (List.mem_append_right _ h)
        · exact .inr (List.mem_cons_of_mem _ h)
      · intro y hy z hz
        by_cases hzd : z ∈ x :: done
        · exact .inr hzd
        · rcases List.mem_cons.1 hy with rfl | hy
          · left
            refine List.mem_append_left _ (List.mem_reverse.2 (List.mem_filter.2 ⟨mem_succsOf.2 hz, ?_⟩))
            simpa using hzd
          · rcases hcl y hy z hz with h | h
            · rcases List.mem_cons.1 h with rfl | h
              · exact absurd List.mem_cons_self hzd
              · exact .inl (List.mem_append_right _ h)
            · exact .inr (List.mem_cons_of_mem _ h)

/-- The loop as called by `apply`. -/
theorem candLoop_init {h : Heap} {S pf0 : List Nat} {f r} (hr : candLoop h f pf0 S [] = some r)
    (hnd : pf0.Nodup) : r.Nodup ∧ ∀ x, x ∈ r ↔ x ∈ pf0 ∧ ¬ ReachFrom h S x :=
  candLoop_spec f pf0 S [] r hr hnd (fun x hx => ⟨x, hx, .refl⟩) (by simp) (fun _ h => h)
    (fun _ h => .inl h) (by simp) (fun _ h => .inl h) (by simp)

/-! ## Termination of the candidate loop -/

/-- Number of paths of bounded length. -/
def pathWeight (h : Heap) : Nat → Nat → Nat
  | 0, _ => 1
  | k + 1, x => 1 + ((succsOf h x).map (pathWeight h k)).sum

theorem pathWeight_pos (h : Heap) (k x) : 0 < pathWeight h k x := by
  cases k <;> simp [pathWeight]

theorem sum_map_le {α} (l : List α) (f g : α → Nat) (hfg : ∀ x ∈ l, f x ≤ g x) :
    (l.map f).sum ≤ (l.map g).sum := by
  induction l with
  | nil => simp
  | cons a l ih =>
    have h1 := hfg a List.mem_cons_self
    have h2 := ih (fun x hx => hfg x (List.mem_cons_of_mem _ hx))
    simp only [List.map_cons, List.sum_cons]; omega

theorem pathWeight_mono (h : Heap) : ∀ k x, pathWeight h k x ≤ pathWeight h (k + 1) x := by
  intro k
  induction k with
  | zero => intro x; simp [pathWeight]
  | succ k ih =>
    intro x
    simp only [pathWeight]
    exact Nat.add_le_add_left (sum_map_le _ _ _ (fun y _ => ih y)) 1

theorem pathWeight_mono' (h : Heap) {k l} (hkl : k ≤ l) (x) : pathWeight h k x ≤ pathWeight h l x := by
  induction hkl with
  | refl => exact Nat.le_refl _
  | step _ ih => exact Nat.le_trans ih (pathWeight_mono h _ x)

/-- The heap is a finite acyclic graph. -/
structure HeapOK (h : Heap) : Prop where
  succ_lt : ∀ u v, Edge h u v → v < h.length
  acyc : ∃ rank : Nat → Nat, ∀ u v, Edge h u v → rank v < rank u

theorem HeapOK.weight {h : Heap} (hh : HeapOK h) :
    ∃ w : Nat → Nat, ∀ x, ((succsOf h x).map w).sum < w x := by
  obtain ⟨rank, hr⟩ := hh.acyc
  refine ⟨fun x => pathWeight h (rank x) x, fun x => ?_⟩
  have hle : ∀ y ∈ succsOf h x, pathWeight h (rank y) y ≤ pathWeight h (rank x - 1) y := by
    intro y hy
    have := hr _ _ (mem_succsOf.1 hy)
    exact pathWeight_mono' h (by omega) y
  by_cases h0 : rank x = 0
  · have hnil : succsOf h x = [] := by
      cases hs : succsOf h x with
      | nil => rfl
      | cons y l =>
        have := hr _ _ (mem_succsOf.1 (by rw [hs]; exact List.mem_cons_self : y ∈ succsOf h x))
        omega
    rw [hnil]
    simpa using pathWeight_pos h (rank x) x
  · obtain ⟨k, hk⟩ := Nat.exists_eq_succ_of_ne_zero h0
    have := sum_map_le _ _ _ hle
    simp only [hk, Nat.succ_eq_add_one, Nat.add_sub_cancel] at this ⊢
    rw [pathWeight]
    omega

theorem HeapOK.irrefl {h : Heap} (hh : HeapOK h) {x} : ¬ TransGen (Edge h) x x := by
  obtain ⟨rank, hr⟩ := hh.acyc
  have : ∀ x y, TransGen (Edge h) x y → rank y < rank x := by
    intro x y hxy
    induction hxy with
    | single h => exact hr _ _ h
    | tail _ h ih => exact Nat.lt_trans (hr _ _ h) ih
  exact fun hxx => Nat.lt_irrefl _ (this _ _ hxx)

/-- The candidate loop terminates on every acyclic heap: fuel above the total weight of
the predecessor list suffices. -/
theorem candLoop_terminates {h : Heap} {w : Nat → Nat} (hw : ∀ x, ((succsOf h x).map w).sum < w x) :
    ∀ (f : Nat) (pf st done : List Nat), (st.map w).sum < f → ∃ r, candLoop h f pf st done = some r := by
  intro f
  induction f with
  | zero => intro _ _ _ h; omega
  | succ f ih =>
    intro pf st done hlt
    match pf, st with
    | [], st => exact ⟨[], by simp [candLoop]⟩
    | p :: pf, [] => exact ⟨p :: pf, by simp [candLoop]⟩
    | p :: pf, x :: st =>
      rw [candLoop_cons]
      refine ih _ _ _ ?_
      simp only [List.map_append, List.sum_append, List.map_reverse, List.sum_reverse]
      have h1 : (((succsOf h x).filter (fun y => !(x :: done).contains y)).map w).sum
          ≤ ((succsOf h x).map w).sum := by
        generalize succsOf h x = l
        induction l with
        | nil => simp
        | cons a l ih =>
          by_cases ha : (!(x :: done).contains a) = true
          · rw [List.filter_cons_of_pos (p := fun y => !(x :: done).contains y) ha]; simp only [List.map_cons, List.sum_cons]; omega
          · rw [List.filter_cons_of_neg (p := fun y => !(x :: done).contains y) ha]; simp only [List.map_cons, List.sum_cons]; omega
      have h2 := hw x
      simp only [List.map_cons, List.sum_cons] at hlt
      omega

/-- More fuel does not change the outcome. -/
theorem candLoop_mono {h : Heap} : ∀ (f f' : Nat) (pf st done r : List Nat), f ≤ f' →
    candLoop h f pf st done = some r → candLoop h f' pf st done = some r := by
  intro f
  induction f with
  | zero => intro f' pf st done r _ hr; simp [candLoop] at hr
  | succ f ih =>
    intro f' pf st done r hf hr
    obtain ⟨f'', rfl⟩ : ∃ f'', f' = f'' + 1 := ⟨f' - 1, by omega⟩
    match pf, st with
    | [], st => simpa [candLoop] using hr
    | p :: pf, [] => simpa [candLoop] using hr
    | p :: pf, x :: st =>
      rw [candLoop_cons] at hr ⊢
      exact ih f'' _ _ _ r (by omega) hr

end Verif.Prog
