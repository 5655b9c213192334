import Verif.PoPrint

/-! # Model of the printed order of the actions (src/sat/sat_planner.cpp 124-148, src/sat/sog.cpp 616-636)

After the plan, the planner can print for every action which printed actions have to come after it.  It uses the sets of
successors that `calcSucessorSets` computes for the graph of the leaves. -/

namespace Verif.Pdt

open Verif.Htn Verif.Sog Verif.Sat Verif.Inv Relation

/-- The array `visi` and the sets `successorSet` (sog.cpp 616-636).  The sets are lists of their elements. -/
structure SuccSt where
  vis : Nat → Bool
  succ : Nat → List Nat

/-- `succdfs` (sog.cpp 616-627): the recursion, at most `fuel` calls deep.  The neighbours are visited in the order in which
they are stored. -/
def succDfs (adj : Nat → List Nat) : Nat → Nat → SuccSt → SuccSt
  | 0, _, S => S
  | f + 1, n, S =>
    if S.vis n then S
    else (adj n).foldl (fun S k =>
        let S' := succDfs adj f k S
        { S' with succ := fun v => if v = n then S'.succ n ∪ S'.succ k else S'.succ v })
      ⟨fun v => v == n || S.vis v, fun v => if v = n then S.succ n ∪ [n] else S.succ v⟩

/-- `calcSucessorSets` (sog.cpp 629-636) for `N` vertices. -/
def calcSucc (adj : Nat → List Nat) (N : Nat) : SuccSt :=
  (List.range N).foldl (fun S i => succDfs adj (N + 1) i S) ⟨fun _ => false, fun _ => []⟩

/-- The printed order (sat_planner.cpp 135-146): for every printed action its number and the numbers of the printed actions
that are its successors.  `iter` is the order in which the set is visited. -/
def orderPO (o : POut) (M : MData) (es : List (Path × Path)) (iter : List Nat → List Nat) (w : Assignment) : List (Nat × List Nat) :=
  (matchedPO o M w).map fun e => ((o.id (M.leaf e.1)).getD 0,
    (iter ((calcSucc (M.succs es) M.vs.length).succ e.1)).filterMap fun s =>
      if M.leaf s = M.leaf e.1 then none else o.id (M.leaf s))

section
variable {adj : Nat → List Nat}

/-- The edges. -/
def AdjR (adj : Nat → List Nat) (a b : Nat) : Prop := b ∈ adj a

/-- The set of a vertex is finished. -/
def DoneAt (adj : Nat → List Nat) (S : SuccSt) (v : Nat) : Prop :=
  (S.vis v = true → ∀ u, u ∈ S.succ v ↔ ReflTransGen (AdjR adj) v u) ∧ (S.vis v = false → S.succ v = [])

theorem succDfs_spec {rk : Nat → Nat} (hrk : ∀ a b, AdjR adj a b → rk b < rk a) : ∀ (f n : Nat), rk n < f → ∀ S : SuccSt,
    (∀ v, ReflTransGen (AdjR adj) n v → DoneAt adj S v) →
    (succDfs adj f n S).vis n = true ∧ (∀ v, S.vis v = true → (succDfs adj f n S).vis v = true) ∧
    (∀ v, ¬ ReflTransGen (AdjR adj) n v → (succDfs adj f n S).vis v = S.vis v ∧ (succDfs adj f n S).succ v = S.succ v) ∧
    ∀ v, ReflTransGen (AdjR adj) n v → DoneAt adj (succDfs adj f n S) v := by
  have hacy : ∀ {a b}, AdjR adj a b → ¬ ReflTransGen (AdjR adj) b a := by
    intro a b h h'
    have : ∀ {x y}, ReflTransGen (AdjR adj) x y → rk y ≤ rk x := by
      intro x y hxy
      induction hxy with
      | refl => exact le_rfl
      | tail _ h ih => exact (hrk _ _ h).le.trans ih
    exact absurd (hrk _ _ h) (by have := this h'; omega)
  intro f
  induction f with
  | zero => intro n h; omega
  | succ f ih =>
    intro n hn S hS
    rw [succDfs]
    by_cases hv : S.vis n = true
    · rw [if_pos hv]
      exact ⟨hv, fun _ h => h, fun _ _ => ⟨rfl, rfl⟩, hS⟩
    · rw [if_neg hv]
      have h0 := (hS n .refl).2 (by simpa using hv)
      -- the loop over the neighbours
      have key : ∀ (ks done : List Nat), adj n = done ++ ks → ∀ S' : SuccSt, S'.vis n = true →
          (∀ u, u ∈ S'.succ n ↔ u = n ∨ ∃ k ∈ done, ReflTransGen (AdjR adj) k u) → (∀ v, S.vis v = true → S'.vis v = true) →
          (∀ v, ¬ ReflTransGen (AdjR adj) n v → S'.vis v = S.vis v ∧ S'.succ v = S.succ v) →
          (∀ v, v ≠ n → ReflTransGen (AdjR adj) n v → DoneAt adj S' v) →
          let R := ks.foldl (fun S k =>
            let S' := succDfs adj f k S
            { S' with succ := fun v => if v = n then S'.succ n ∪ S'.succ k else S'.succ v }) S'
          R.vis n = true ∧ (∀ u, u ∈ R.succ n ↔ u = n ∨ ∃ k ∈ adj n, ReflTransGen (AdjR adj) k u) ∧ (∀ v, S.vis v = true → R.vis v = true) ∧
          (∀ v, ¬ ReflTransGen (AdjR adj) n v → R.vis v = S.vis v ∧ R.succ v = S.succ v) ∧
          (∀ v, v ≠ n → ReflTransGen (AdjR adj) n v → DoneAt adj R v) := by
        intro ks
        induction ks with
        | nil =>
          intro done hd S' h1 h2 h3 h4 h5
          rw [List.append_nil] at hd
          rw [hd]
          exact ⟨h1, h2, h3, h4, h5⟩
        | cons k ks ihk =>
          intro done hd S' h1 h2 h3 h4 h5
          have hk : AdjR adj n k := by unfold AdjR; rw [hd]; simp
          have hnk : ¬ ReflTransGen (AdjR adj) k n := hacy hk
          have hne : ∀ v, ReflTransGen (AdjR adj) k v → v ≠ n := fun v h e => hnk (e ▸ h)
          obtain ⟨g1, g2, g3, g4⟩ := ih k (by have := hrk n k hk; omega) S' fun v h => h5 v (hne v h) (.head hk h)
          rw [List.foldl_cons]
          refine ihk (done ++ [k]) (by rw [hd]; simp) _ ?_ ?_ ?_ ?_ ?_
          · exact g2 n h1
          · intro u
            simp only [if_true]
            rw [List.mem_union_iff, (g3 n hnk).2, h2 u, (g4 k .refl).1 g1 u]
            simp only [List.mem_append, List.mem_singleton]
            constructor
            · rintro ((h | ⟨k', h, h'⟩) | h)
              · exact .inl h
              · exact .inr ⟨k', .inl h, h'⟩
              · exact .inr ⟨k, .inr rfl, h⟩
            · rintro (h | ⟨k', h | rfl, h'⟩)
              · exact .inl (.inl h)
              · exact .inl (.inr ⟨k', h, h'⟩)
              · exact .inr h'
          · exact fun v h => g2 v (h3 v h)
          · intro v h
            have hvn : v ≠ n := fun e => h (e ▸ .refl)
            have hkv : ¬ ReflTransGen (AdjR adj) k v := fun h' => h (.head hk h')
            simp only [if_neg hvn]
            exact ⟨(g3 v hkv).1.trans (h4 v h).1, (g3 v hkv).2.trans (h4 v h).2⟩
          · intro v hvn h
            by_cases hkv : ReflTransGen (AdjR adj) k v
            · have := g4 v hkv
              unfold DoneAt at this ⊢
              simp only [if_neg hvn]
              exact this
            · have := h5 v hvn h
              unfold DoneAt at this ⊢
              simp only [if_neg hvn]
              rw [(g3 v hkv).1, (g3 v hkv).2]
              exact this
      obtain ⟨k1, k2, k3, k4, k5⟩ := key (adj n) [] rfl ⟨fun v => v == n || S.vis v, fun v => if v = n then S.succ n ∪ [n] else S.succ v⟩
        (by simp) (fun u => by simp [h0]) (fun v h => by simp [h]) (fun v h => by
          have hvn : v ≠ n := fun e => h (e ▸ .refl)
          simp [hvn]) (fun v hvn h => by
          have := hS v h
          unfold DoneAt at this ⊢
          simpa [hvn] using this)
      refine ⟨k1, k3, k4, fun v h => ?_⟩
      by_cases hvn : v = n
      · subst hvn
        refine ⟨fun _ u => ?_, fun h => by rw [k1] at h; simp at h⟩
        rw [k2 u]
        constructor
        · rintro (rfl | ⟨k, hk, h⟩)
          · exact .refl
          · exact .head hk h
        · intro h
          rcases ReflTransGen.cases_head h with h | ⟨k, hk, h⟩
          · exact .inl h.symm
          · exact .inr ⟨k, hk, h⟩
      · exact k5 v hvn h

/-- In a graph without cycles the sets are the vertices that can be reached. -/
theorem calcSucc_spec {N : Nat} (hin : ∀ a b, AdjR adj a b → a < N ∧ b < N) (hac : ∀ a, ¬ TransGen (AdjR adj) a a) :
    ∀ v < N, ∀ u, u ∈ (calcSucc adj N).succ v ↔ ReflTransGen (AdjR adj) v u := by
  classical
  let rk : Nat → Nat := fun v => ((List.range N).filter fun u => decide (TransGen (AdjR adj) v u)).length
  have hrk : ∀ a b, AdjR adj a b → rk b < rk a := by
    intro a b h
    refine filter_length_lt _ _ _ (fun u _ hu => ?_) (List.mem_range.2 (hin a b h).2) ?_ ?_
    · rw [decide_eq_true_eq] at hu ⊢
      exact .head h hu
    · rw [decide_eq_true_eq]
      exact .single h
    · rw [decide_eq_false_iff_not]
      exact hac b
  have hle : ∀ v, rk v < N + 1 := fun v => Nat.lt_succ_of_le ((List.length_filter_le _ _).trans (by simp))
  have key : ∀ (l : List Nat) (S : SuccSt), (∀ v, DoneAt adj S v) →
      (∀ v, DoneAt adj (l.foldl (fun S i => succDfs adj (N + 1) i S) S) v) ∧
      (∀ v, S.vis v = true ∨ v ∈ l → (l.foldl (fun S i => succDfs adj (N + 1) i S) S).vis v = true) := by
    intro l
    induction l with
    | nil => intro S h; exact ⟨h, fun v h => by simpa using h⟩
    | cons n l ih =>
      intro S h
      obtain ⟨g1, g2, g3, g4⟩ := succDfs_spec hrk (N + 1) n (hle n) S fun v _ => h v
      obtain ⟨k1, k2⟩ := ih (succDfs adj (N + 1) n S) fun v => by
        by_cases hv : ReflTransGen (AdjR adj) n v
        · exact g4 v hv
        · have := h v
          unfold DoneAt at this ⊢
          rw [(g3 v hv).1, (g3 v hv).2]
          exact this
      refine ⟨k1, fun v hv => k2 v ?_⟩
      rcases hv with hv | hv
      · exact .inl (g2 v hv)
      · rcases List.mem_cons.1 hv with rfl | hv
        · exact .inl g1
        · exact .inr hv
  obtain ⟨k1, k2⟩ := key (List.range N) ⟨fun _ => false, fun _ => []⟩ fun v => ⟨fun h => by simp at h, fun _ => rfl⟩
  intro v hv
  exact (k1 v).1 (k2 v (.inr (List.mem_range.2 hv)))

end

end Verif.Pdt
