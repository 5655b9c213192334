import Mathlib.Data.List.Perm.Subperm
import Mathlib.Data.List.Nodup
import Mathlib.Data.Finset.Card
import Mathlib.Logic.Relation

/-! # Model of the topological sorting of methods (`Model::methodTopSortDFS`, `Model::isMethodTotallyOrdered`,
src/Model.cpp 2975-3006)

`adj a` lists the successors of subtask `a` in the order in which the hash set is iterated, which is left open.  The
array `order` is filled from its end, so it is a list to which elements are added in front.  `colour` is a map whose
missing entries read 0. -/

namespace Verif.MethodOrder

open Relation

/-- State of the search: colours and the filled part of `order`. -/
structure St where
  colour : Nat → Nat
  order : List Nat

mutual
/-- `methodTopSortDFS` (src/Model.cpp 2975-2984); `none`: the recursion is deeper than the fuel. -/
def dfs (adj : Nat → List Nat) : Nat → Nat → St → Option St
  | 0, _, _ => none
  | f + 1, cur, s =>
    if s.colour cur ≠ 0 then some s
    else
      match dfsAll adj f (adj cur) { s with colour := Function.update s.colour cur 1 } with
      | none => none
      | some s' => some ⟨Function.update s'.colour cur 2, cur :: s'.order⟩
/-- The loop over the neighbours (line 2980). -/
def dfsAll (adj : Nat → List Nat) : Nat → List Nat → St → Option St
  | _, [], s => some s
  | f, x :: xs, s =>
    match dfs adj f x s with
    | none => none
    | some s' => dfsAll adj f xs s'
end

/-- The loop over the subtasks (lines 2995-2996). -/
def outer (adj : Nat → List Nat) (f : Nat) : List Nat → St → Option St
  | [], s => some s
  | i :: is, s =>
    if s.colour i = 0 then
      match dfs adj f i s with
      | none => none
      | some s' => outer adj f is s'
    else outer adj f is s

/-- `methodTotalOrder[method]` (lines 2990-2996) for a method with `n` subtasks.  If the search finds more or fewer
than `n` subtasks, the array is written or read out of bounds. -/
def methodOrder (n : Nat) (adj : Nat → List Nat) : Option (List Nat) :=
  match outer adj (n + 1) (List.range n) ⟨fun _ => 0, []⟩ with
  | none => none
  | some s => if s.order.length = n then some s.order else none

/-- The check of consecutive subtasks (lines 2999-3003). -/
def consecutive (adj : Nat → List Nat) : List Nat → Bool
  | a :: b :: l => (adj a).contains b && consecutive adj (b :: l)
  | _ => true

/-- `isMethodTotallyOrdered` (src/Model.cpp 2987-3006): the ordering and the verdict. -/
def isMethodTotallyOrdered (n : Nat) (adj : Nat → List Nat) : Option (List Nat × Bool) :=
  (methodOrder n adj).map fun l => (l, consecutive adj l)

/-! ## Correctness -/

variable {adj : Nat → List Nat} {n : Nat}

/-- Subtasks not yet coloured. -/
def white (n : Nat) (s : St) : Nat := ((List.range n).filter fun i => s.colour i == 0).length

structure Inv (adj : Nat → List Nat) (n : Nat) (s : St) : Prop where
  nodup : s.order.Nodup
  black : ∀ x, x ∈ s.order ↔ s.colour x = 2
  range : ∀ x, s.colour x ≠ 0 → x < n
  closed : ∀ x ∈ s.order, ∀ y ∈ adj x, y ∈ s.order
  sorted : s.order.Pairwise fun a b => a ∉ adj b

/-- What a call may change: white subtasks become black. -/
structure Grow (s s' : St) : Prop where
  keep : ∀ x, s.colour x ≠ 0 → s'.colour x = s.colour x
  new : ∀ x, s.colour x = 0 → s'.colour x = 0 ∨ s'.colour x = 2

theorem Grow.refl (s : St) : Grow s s := ⟨fun _ _ => rfl, fun _ h => .inl h⟩

theorem Grow.trans {a b c : St} (h : Grow a b) (h' : Grow b c) : Grow a c := by
  refine ⟨fun x hx => ?_, fun x hx => ?_⟩
  · rw [h'.keep x (by rw [h.keep x hx]; exact hx), h.keep x hx]
  · rcases h.new x hx with h1 | h1
    · exact h'.new x h1
    · right; rw [h'.keep x (by rw [h1]; decide), h1]

theorem Grow.white_le {s s' : St} (h : Grow s s') : white n s' ≤ white n s := by
  unfold white
  refine List.Sublist.length_le (List.monotone_filter_right _ fun x hx => ?_)
  simp only [beq_iff_eq] at hx ⊢
  by_contra hc
  rw [h.keep x hc] at hx
  exact hc hx

theorem white_lt {s : St} {x : Nat} (hx : x < n) (h0 : s.colour x = 0) :
    white n { s with colour := Function.update s.colour x 1 } < white n s := by
  unfold white
  have hsub : ((List.range n).filter fun i => (Function.update s.colour x 1) i == 0).Sublist
      (((List.range n).filter fun i => s.colour i == 0).erase x) := by
    rw [(List.nodup_range.filter _).erase_eq_filter, List.filter_filter]
    refine List.monotone_filter_right _ fun y hy => ?_
    by_cases hyx : y = x
    · subst hyx; simp at hy
    · simp only [Function.update_apply, if_neg hyx] at hy
      simp [hyx]
      simpa using hy
  have h1 := hsub.length_le
  have hmem : x ∈ (List.range n).filter fun i => s.colour i == 0 := by simp [hx, h0]
  rw [List.length_erase_of_mem hmem] at h1
  have h2 := List.length_pos_of_mem hmem
  show ((List.range n).filter fun i => (Function.update s.colour x 1) i == 0).length < _
  omega

mutual
theorem dfs_spec {rank : Nat → Nat} (hr : ∀ a, ∀ b ∈ adj a, rank a < rank b) (hb : ∀ a, ∀ b ∈ adj a, b < n) :
    ∀ (f : Nat) (cur : Nat) (s : St), Inv adj n s → cur < n → (∀ g, s.colour g ≠ 0 → s.colour g ≠ 2 → rank g < rank cur) →
    white n s < f → ∃ s', dfs adj f cur s = some s' ∧ Inv adj n s' ∧ Grow s s' ∧ s'.colour cur = 2
  | 0, _, _, _, _, _, hf => absurd hf (by omega)
  | f + 1, cur, s, hi, hc, hg, hf => by
    by_cases h0 : s.colour cur = 0
    · have hw := white_lt (n := n) hc h0
      have hcur : cur ∉ s.order := by rw [hi.black, h0]; decide
      have hi1 : Inv adj n { s with colour := Function.update s.colour cur 1 } := by
        refine ⟨hi.nodup, fun x => ?_, fun x hx => ?_, hi.closed, hi.sorted⟩
        · show x ∈ s.order ↔ Function.update s.colour cur 1 x = 2
          by_cases hx : x = cur
          · subst hx; simp [hcur]
          · rw [Function.update_of_ne hx]; exact hi.black x
        · by_cases hxc : x = cur
          · subst hxc; exact hc
          · have hx' : Function.update s.colour cur 1 x ≠ 0 := hx
            rw [Function.update_of_ne hxc] at hx'
            exact hi.range x hx'
      obtain ⟨s', he, hi', hgr, hall⟩ := dfsAll_spec hr hb f (adj cur) _ hi1 (hb cur) (fun y hy g h1 h2 => by
        by_cases hgc : g = cur
        · subst hgc; exact hr _ y hy
        · have h1' : Function.update s.colour cur 1 g ≠ 0 := h1
          have h2' : Function.update s.colour cur 1 g ≠ 2 := h2
          rw [Function.update_of_ne hgc] at h1' h2'
          exact (hg g h1' h2').trans (hr _ y hy)) (by omega)
      have hcs : s'.colour cur = 1 := by
        have := hgr.keep cur (by show Function.update s.colour cur 1 cur ≠ 0; simp)
        rw [this]; show Function.update s.colour cur 1 cur = 1; simp
      have hcn : cur ∉ s'.order := by rw [hi'.black, hcs]; decide
      refine ⟨⟨Function.update s'.colour cur 2, cur :: s'.order⟩, ?_, ?_, ?_, by simp⟩
      · rw [dfs, if_neg (by simp [h0]), he]
      · refine ⟨List.nodup_cons.2 ⟨hcn, hi'.nodup⟩, fun x => ?_, fun x hx => ?_, ?_, ?_⟩
        · show x ∈ cur :: s'.order ↔ Function.update s'.colour cur 2 x = 2
          by_cases hx : x = cur
          · subst hx; simp
          · rw [Function.update_of_ne hx, List.mem_cons, ← hi'.black x]; simp [hx]
        · by_cases hxc : x = cur
          · subst hxc; exact hc
          · have hx' : Function.update s'.colour cur 2 x ≠ 0 := hx
            rw [Function.update_of_ne hxc] at hx'
            exact hi'.range x hx'
        · intro x hx y hy
          rcases List.mem_cons.1 hx with rfl | hx
          · exact List.mem_cons_of_mem _ ((hi'.black y).2 (hall y hy))
          · exact List.mem_cons_of_mem _ (hi'.closed x hx y hy)
        · exact List.pairwise_cons.2 ⟨fun b hb' hcb => hcn (hi'.closed b hb' cur hcb), hi'.sorted⟩
      · refine ⟨fun x hx => ?_, fun x hx => ?_⟩
        · have hxc : x ≠ cur := by rintro rfl; exact hx h0
          show Function.update s'.colour cur 2 x = s.colour x
          rw [Function.update_of_ne hxc]
          have := hgr.keep x (by show Function.update s.colour cur 1 x ≠ 0; rw [Function.update_of_ne hxc]; exact hx)
          rw [this]; show Function.update s.colour cur 1 x = _; rw [Function.update_of_ne hxc]
        · show Function.update s'.colour cur 2 x = 0 ∨ Function.update s'.colour cur 2 x = 2
          by_cases hxc : x = cur
          · subst hxc; simp
          · rw [Function.update_of_ne hxc]
            exact hgr.new x (by show Function.update s.colour cur 1 x = 0; rw [Function.update_of_ne hxc]; exact hx)
    · refine ⟨s, by rw [dfs, if_pos h0], hi, Grow.refl s, ?_⟩
      by_contra h2
      exact absurd (hg cur h0 h2) (by omega)
termination_by f _ _ _ _ _ _ => (f, 0)
theorem dfsAll_spec {rank : Nat → Nat} (hr : ∀ a, ∀ b ∈ adj a, rank a < rank b) (hb : ∀ a, ∀ b ∈ adj a, b < n) :
    ∀ (f : Nat) (xs : List Nat) (s : St), Inv adj n s → (∀ x ∈ xs, x < n) →
    (∀ x ∈ xs, ∀ g, s.colour g ≠ 0 → s.colour g ≠ 2 → rank g < rank x) →
    white n s < f → ∃ s', dfsAll adj f xs s = some s' ∧ Inv adj n s' ∧ Grow s s' ∧ ∀ x ∈ xs, s'.colour x = 2
  | f, [], s, hi, _, _, _ => ⟨s, by rw [dfsAll], hi, Grow.refl s, by simp⟩
  | f, x :: xs, s, hi, hx, hg, hf => by
    obtain ⟨s1, e1, i1, g1, c1⟩ := dfs_spec hr hb f x s hi (hx x (by simp)) (hg x (by simp)) hf
    obtain ⟨s2, e2, i2, g2, c2⟩ := dfsAll_spec hr hb f xs s1 i1 (fun y hy => hx y (by simp [hy])) (fun y hy g h1 h2 => by
      have hgs : s.colour g ≠ 0 := by
        intro h0
        rcases g1.new g h0 with h | h
        · exact h1 h
        · exact h2 h
      rw [g1.keep g hgs] at h2
      exact hg y (by simp [hy]) g hgs h2) (by have := g1.white_le (n := n); omega)
    refine ⟨s2, by rw [dfsAll, e1]; exact e2, i2, g1.trans g2, fun y hy => ?_⟩
    rcases List.mem_cons.1 hy with rfl | hy
    · rw [g2.keep _ (by rw [c1]; decide), c1]
    · exact c2 y hy
termination_by f xs _ _ _ _ _ => (f, xs.length + 1)
end

theorem outer_spec {rank : Nat → Nat} (hr : ∀ a, ∀ b ∈ adj a, rank a < rank b) (hb : ∀ a, ∀ b ∈ adj a, b < n) {f : Nat}
    (hf : n < f) : ∀ (is : List Nat) (s : St), Inv adj n s → (∀ i ∈ is, i < n) → (∀ g, s.colour g = 0 ∨ s.colour g = 2) →
    ∃ s', outer adj f is s = some s' ∧ Inv adj n s' ∧ Grow s s' ∧ (∀ g, s'.colour g = 0 ∨ s'.colour g = 2) ∧
      ∀ i ∈ is, s'.colour i = 2 := by
  intro is
  induction is with
  | nil => intro s hi _ hg; exact ⟨s, rfl, hi, Grow.refl s, hg, by simp⟩
  | cons i is ih =>
    intro s hi hlt hg
    by_cases h0 : s.colour i = 0
    · have hw : white n s < f := by
        have : white n s ≤ (List.range n).length := List.length_filter_le _ _
        rw [List.length_range] at this; omega
      obtain ⟨s1, e1, i1, g1, c1⟩ := dfs_spec hr hb f i s hi (hlt i (by simp))
        (fun g h1 h2 => by rcases hg g with h | h; exacts [absurd h h1, absurd h h2]) hw
      have hg1 : ∀ g, s1.colour g = 0 ∨ s1.colour g = 2 := fun g => by
        rcases hg g with h | h
        · exact g1.new g h
        · right; rw [g1.keep g (by rw [h]; decide), h]
      obtain ⟨s2, e2, i2, g2, h2, c2⟩ := ih s1 i1 (fun y hy => hlt y (by simp [hy])) hg1
      refine ⟨s2, by rw [outer, if_pos h0, e1]; exact e2, i2, g1.trans g2, h2, fun y hy => ?_⟩
      rcases List.mem_cons.1 hy with rfl | hy
      · rw [g2.keep _ (by rw [c1]; decide), c1]
      · exact c2 y hy
    · obtain ⟨s2, e2, i2, g2, h2, c2⟩ := ih s hi (fun y hy => hlt y (by simp [hy])) hg
      refine ⟨s2, by rw [outer, if_neg h0]; exact e2, i2, g2, h2, fun y hy => ?_⟩
      rcases List.mem_cons.1 hy with rfl | hy
      · rw [g2.keep _ h0]
        rcases hg y with h | h
        exacts [absurd h h0, h]
      · exact c2 y hy

/-- The computed order lists every subtask once, and no subtask after one of its successors. -/
theorem methodOrder_spec {rank : Nat → Nat} (hr : ∀ a, ∀ b ∈ adj a, rank a < rank b) (hb : ∀ a, ∀ b ∈ adj a, b < n) :
    ∃ l, methodOrder n adj = some l ∧ l.Perm (List.range n) ∧ l.Pairwise fun a b => a ∉ adj b := by
  obtain ⟨s, e, hi, -, hc, hall⟩ := outer_spec hr hb (Nat.lt_succ_self n) (List.range n) ⟨fun _ => 0, []⟩
    ⟨List.nodup_nil, by simp, by simp, by simp, List.Pairwise.nil⟩ (by simp) (by simp)
  have hp : s.order.Perm (List.range n) := by
    rw [List.perm_ext_iff_of_nodup hi.nodup List.nodup_range]
    intro x
    rw [hi.black, List.mem_range]
    exact ⟨fun h => hi.range x (by rw [h]; decide), fun h => hall x (List.mem_range.2 h)⟩
  refine ⟨s.order, ?_, hp, hi.sorted⟩
  unfold methodOrder
  rw [e]
  simp only
  rw [if_pos (by rw [hp.length_eq, List.length_range])]

theorem consecutive_iff {l : List Nat} : consecutive adj l = true ↔ l.IsChain fun a b => b ∈ adj a := by
  induction l with
  | nil => simp [consecutive]
  | cons a l ih =>
    cases l with
    | nil => simp [consecutive]
    | cons b l => simp [consecutive, ih, List.isChain_cons_cons]

end Verif.MethodOrder
