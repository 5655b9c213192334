import Mathlib.Logic.Relation
import Mathlib.Logic.Function.Basic
import Mathlib.Data.Finset.Basic
import Mathlib.Data.Finset.Card
import Mathlib.Tactic.SplitIfs

/-! # Model of Tarjan's algorithm as used for tasks and for disabling graphs -/

namespace Verif.Scc

open Relation

/-- Members of the model object used by `tarjan` (src/Model.cpp 2268-2281, src/sat/disabling_graph.cpp 48-63).
`stack` is the vector `S`, last element first; `scc x = none` stands for -1. -/
structure TS where
  maxdfs : Nat
  /-- `U` -/
  unseen : Nat → Bool
  stack : List Nat
  /-- `containedS` -/
  onS : Nat → Bool
  /-- `dfsI` -/
  dfs : Nat → Nat
  /-- `lowlink` -/
  low : Nat → Nat
  /-- `numSCCs` -/
  num : Nat
  /-- `taskToSCC`, `vertexToSCC` -/
  scc : Nat → Option Nat

/-- Before the first call (src/Model.cpp 2268-2281); `dfsI` and `lowlink` are not initialised: `junk`. -/
def TS.init (junk : Nat → Nat) : TS where
  maxdfs := 0
  unseen _ := true
  stack := []
  onS _ := false
  dfs := junk
  low := junk
  num := 0
  scc _ := none

/-- `if (lowlink[v] > x) lowlink[v] = x` (src/Model.cpp 2371-2377). -/
def TS.lower (s : TS) (v x : Nat) : TS :=
  if x < s.low v then { s with low := Function.update s.low v x } else s

/-- The loop over the adjacent vertices (src/Model.cpp 2364-2380, src/sat/disabling_graph.cpp 112-123); `rec` is
the recursive call, `N` the size of the arrays.  Outcome `none`: out of bounds (or fuel). -/
def visitAdj (N : Nat) (rec : TS → Nat → Option TS) (v : Nat) : List Nat → TS → Option TS
  | [], s => some s
  | w :: ws, s =>
    if w < N then
      if s.unseen w then
        match rec s w with
        | none => none
        | some s => visitAdj N rec v ws (s.lower v (s.low w))
      else if s.onS w then visitAdj N rec v ws (s.lower v (s.dfs w))
      else visitAdj N rec v ws s
    else none

/-- The `do ... while` loop that removes a component from the stack (src/Model.cpp 2383-2389).  Outcome `none`:
`back()` of the empty vector. -/
def popScc (v : Nat) : List Nat → TS → Option TS
  | [], _ => none
  | w :: st, s =>
    if w = v then
      some { s with stack := st, onS := Function.update s.onS w false, scc := Function.update s.scc w (some s.num) }
    else popScc v st
      { s with stack := st, onS := Function.update s.onS w false, scc := Function.update s.scc w (some s.num) }

/-- The initialisation of a vertex (src/Model.cpp 2356-2362). -/
def TS.enter (s : TS) (v : Nat) : TS :=
  { s with
    dfs := Function.update s.dfs v s.maxdfs
    low := Function.update s.low v s.maxdfs
    maxdfs := s.maxdfs + 1
    stack := v :: s.stack
    onS := Function.update s.onS v true
    unseen := Function.update s.unseen v false }

/-- `Model::tarjan` (src/Model.cpp 2355-2390) and `graph::tarjan` (src/sat/disabling_graph.cpp 103-135).  `adj`
lists the adjacent vertices in the order of the loops, with repetitions. -/
def tarjan (N : Nat) (adj : Nat → List Nat) : Nat → TS → Nat → Option TS
  | 0, _, _ => none
  | f + 1, s, v =>
    match visitAdj N (tarjan N adj f) v (adj v) (s.enter v) with
    | none => none
    | some s =>
      if s.low v = s.dfs v then (popScc v s.stack s).map fun s => { s with num := s.num + 1 }
      else some s

/-! ## Correctness -/

variable {N : Nat} {adj : Nat → List Nat}

/-- There is a path. -/
abbrev R (adj : Nat → List Nat) : Nat → Nat → Prop := ReflTransGen fun x y => y ∈ adj x

/-- Invariant; `G` are the vertices whose call has not ended. -/
structure TInv (N : Nat) (adj : Nat → List Nat) (G : List Nat) (s : TS) : Prop where
  sorted : s.stack.Pairwise fun a b => s.dfs b < s.dfs a
  onS : ∀ x, s.onS x = true ↔ x ∈ s.stack
  vis : ∀ x ∈ s.stack, s.unseen x = false
  lt : ∀ x ∈ s.stack, s.dfs x < s.maxdfs
  gray : ∀ x ∈ G, x ∈ s.stack
  visN : ∀ x, s.unseen x = false → x < N
  black : ∀ x, s.unseen x = false → x ∉ G → ∀ y ∈ adj x, s.unseen y = false
  done : ∀ x, s.unseen x = false → x ∉ s.stack → ∀ y ∈ adj x, s.unseen y = false ∧ y ∉ s.stack
  fwd : ∀ x ∈ s.stack, ∀ y ∈ s.stack, s.dfs x ≤ s.dfs y → R adj x y
  bwd : ∀ y ∈ s.stack, ∃ x ∈ G, s.dfs x ≤ s.dfs y ∧ R adj y x
  scc_iff : ∀ x, s.scc x ≠ none ↔ s.unseen x = false ∧ x ∉ s.stack
  scc_lt : ∀ x k, s.scc x = some k → k < s.num
  scc_eq : ∀ x y k l, s.scc x = some k → s.scc y = some l → (k = l ↔ R adj x y ∧ R adj y x)
  scc_top : ∀ x y k l, s.scc x = some k → s.scc y = some l → R adj x y → l ≤ k
  scc_surj : ∀ k < s.num, ∃ x, s.scc x = some k

/-- What the call for `v` guarantees. -/
structure TPost (N : Nat) (adj : Nat → List Nat) (G : List Nat) (s : TS) (v : Nat) (s' : TS) : Prop where
  inv : TInv N adj G s'
  new : ∃ new, s'.stack = new ++ s.stack ∧ (∀ y ∈ new, s.unseen y = true) ∧
    ∀ y ∈ new, ∀ w ∈ adj y, w ∈ s.stack → s'.low v ≤ s'.dfs w
  vis : ∀ x, s.unseen x = false → s'.unseen x = false
  seen : s'.unseen v = false
  keep : ∀ x, s.unseen x = false → s'.dfs x = s.dfs x ∧ s'.low x = s.low x
  dfs : s'.dfs v = s.maxdfs
  low_le : s'.low v ≤ s'.dfs v
  res : (v ∉ s'.stack ∧ s'.low v = s'.dfs v) ∨ (∃ z ∈ s.stack, s'.low v = s'.dfs z ∧ R adj v z)
  reach : ∀ x, s'.unseen x = false → s.unseen x = true → R adj v x

theorem TInv.low {G s} (h : TInv N adj G s) (l : Nat → Nat) : TInv N adj G { s with low := l } :=
  ⟨h.sorted, h.onS, h.vis, h.lt, h.gray, h.visN, h.black, h.done, h.fwd, h.bwd, h.scc_iff, h.scc_lt, h.scc_eq,
    h.scc_top, h.scc_surj⟩

theorem TInv.lower {G s} (h : TInv N adj G s) (v x : Nat) : TInv N adj G (s.lower v x) := by
  unfold TS.lower; split_ifs
  · exact h.low _
  · exact h

theorem lower_spec (s : TS) (v x : Nat) : (s.lower v x).low v = min (s.low v) x ∧
    (∀ y, y ≠ v → (s.lower v x).low y = s.low y) ∧ (s.lower v x).stack = s.stack ∧
    (s.lower v x).unseen = s.unseen ∧ (s.lower v x).dfs = s.dfs ∧ (s.lower v x).maxdfs = s.maxdfs := by
  unfold TS.lower
  split_ifs with h
  · exact ⟨by simp; omega, fun y hy => by simp [hy], rfl, rfl, rfl, rfl⟩
  · exact ⟨by omega, fun _ _ => rfl, rfl, rfl, rfl, rfl⟩

/-- Invariant of the loop over the adjacent vertices of `v`.  `s0` is the state before the call. -/
structure LInv (N : Nat) (adj : Nat → List Nat) (G : List Nat) (s0 : TS) (v : Nat) (pr : List Nat) (s : TS) :
    Prop where
  inv : TInv N adj (v :: G) s
  new : ∃ new, s.stack = new ++ v :: s0.stack ∧ (∀ y ∈ new, s0.unseen y = true) ∧
    ∀ y ∈ new, ∀ w ∈ adj y, w ∈ s0.stack → s.low v ≤ s.dfs w
  vis : ∀ x, s0.unseen x = false → s.unseen x = false
  keep : ∀ x, s0.unseen x = false → s.dfs x = s0.dfs x ∧ s.low x = s0.low x
  dfs : s.dfs v = s0.maxdfs
  low_le : s.low v ≤ s.dfs v
  wit : ∃ z ∈ s.stack, s.low v = s.dfs z ∧ R adj v z
  proc : ∀ w ∈ pr, s.unseen w = false ∧ (w ∈ s.stack → s.low v ≤ s.dfs w)
  reach : ∀ x, s.unseen x = false → s0.unseen x = true → R adj v x

theorem enter_linv {G s v} (h : TInv N adj G s) (hv : s.unseen v = true) (hN : v < N)
    (hr : ∀ x ∈ s.stack, R adj x v) : LInv N adj G s v [] (s.enter v) := by
  have hvs : v ∉ s.stack := fun hm => by have := h.vis v hm; simp [hv] at this
  have hne : ∀ x ∈ s.stack, x ≠ v := fun x hx e => hvs (e ▸ hx)
  have hd : ∀ x, x ≠ v → (s.enter v).dfs x = s.dfs x := fun x hx => by simp [TS.enter, hx]
  have hdv : (s.enter v).dfs v = s.maxdfs := by simp [TS.enter]
  have hu : ∀ x, (s.enter v).unseen x = false ↔ x = v ∨ s.unseen x = false := by
    intro x
    by_cases hx : x = v <;> simp [TS.enter, hx]
  have hst : (s.enter v).stack = v :: s.stack := rfl
  refine ⟨⟨?_, ?_, ?_, ?_, ?_, ?_, ?_, ?_, ?_, ?_, ?_, h.scc_lt, h.scc_eq, h.scc_top, h.scc_surj⟩,
    ⟨[], rfl, by simp, by simp⟩, ?_, ?_, hdv, ?_, ?_, by simp, ?_⟩
  · rw [hst, List.pairwise_cons]
    refine ⟨fun x hx => ?_, h.sorted.imp_of_mem fun {a b} ha hb hab => ?_⟩
    · rw [hdv, hd x (hne x hx)]; exact h.lt x hx
    · rw [hd a (hne a ha), hd b (hne b hb)]; exact hab
  · intro x
    by_cases hx : x = v
    · simp [TS.enter, hx]
    · simp [TS.enter, hx, h.onS]
  · intro x hx
    rw [hu]
    rcases List.mem_cons.1 hx with rfl | hx
    · exact .inl rfl
    · exact .inr (h.vis x hx)
  · intro x hx
    show _ < s.maxdfs + 1
    rcases List.mem_cons.1 hx with rfl | hx
    · rw [hdv]; omega
    · rw [hd x (hne x hx)]; have := h.lt x hx; omega
  · intro x hx
    rcases List.mem_cons.1 hx with rfl | hx
    · exact List.mem_cons_self
    · exact List.mem_cons_of_mem _ (h.gray x hx)
  · intro x hx
    rcases (hu x).1 hx with rfl | hx
    · exact hN
    · exact h.visN x hx
  · intro x hx hG y hy
    have hG' : x ≠ v ∧ x ∉ G := by simpa using hG
    rcases (hu x).1 hx with rfl | hx
    · exact absurd rfl hG'.1
    · exact (hu y).2 (.inr (h.black x hx hG'.2 y hy))
  · intro x hx hxs y hy
    have hxs' : x ≠ v ∧ x ∉ s.stack := by simpa [hst] using hxs
    rcases (hu x).1 hx with rfl | hx
    · exact absurd rfl hxs'.1
    · obtain ⟨h1, h2⟩ := h.done x hx hxs'.2 y hy
      refine ⟨(hu y).2 (.inr h1), ?_⟩
      rw [hst, List.mem_cons]
      rintro (rfl | h3)
      · simp [hv] at h1
      · exact h2 h3
  · intro x hx y hy hxy
    rcases List.mem_cons.1 hx with rfl | hx
    · rcases List.mem_cons.1 hy with rfl | hy
      · exact .refl
      · rw [hdv, hd y (hne y hy)] at hxy
        have := h.lt y hy
        omega
    · rename_i hx0
      rcases List.mem_cons.1 hy with rfl | hy
      · exact hr x (by assumption)
      · rw [hd x (hne x hx), hd y (hne y hy)] at hxy
        exact h.fwd x hx y hy hxy
  · intro y hy
    rcases List.mem_cons.1 hy with rfl | hy
    · exact ⟨y, List.mem_cons_self, Nat.le_refl _, .refl⟩
    · obtain ⟨x, hx, h1, h2⟩ := h.bwd y hy
      refine ⟨x, List.mem_cons_of_mem _ hx, ?_, h2⟩
      rw [hd x (hne x (h.gray x hx)), hd y (hne y hy)]
      exact h1
  · intro x
    show s.scc x ≠ none ↔ _
    rw [h.scc_iff, hu, hst, List.mem_cons]
    constructor
    · rintro ⟨h1, h2⟩
      refine ⟨.inr h1, ?_⟩
      rintro (rfl | h3)
      · simp [hv] at h1
      · exact h2 h3
    · rintro ⟨h1 | h1, h2⟩
      · exact absurd (.inl h1) h2
      · exact ⟨h1, fun h3 => h2 (.inr h3)⟩
  · intro x hx; exact (hu x).2 (.inr hx)
  · intro x hx
    have : x ≠ v := fun e => by rw [e, hv] at hx; simp at hx
    simp [TS.enter, this]
  · simp [TS.enter]
  · exact ⟨v, by simp [TS.enter], by simp [TS.enter], .refl⟩
  · intro x hx h2
    rcases (hu x).1 hx with rfl | hx
    · exact .refl
    · simp [hx] at h2

/-- Everything on the stack reaches the vertex that is being processed. -/
theorem LInv.reach_top {G s0 v pr s} (h : LInv N adj G s0 v pr s) (hG : ∀ x ∈ G, x ∈ s0.stack) :
    ∀ x ∈ s.stack, R adj x v := by
  obtain ⟨new, hst, -, -⟩ := h.new
  have hv : v ∈ s.stack := by rw [hst]; simp
  have hle : ∀ z ∈ v :: G, s.dfs z ≤ s.dfs v := by
    intro z hz
    rcases List.mem_cons.1 hz with rfl | hz
    · exact Nat.le_refl _
    · have := h.inv.sorted
      rw [hst, List.pairwise_append, List.pairwise_cons] at this
      exact Nat.le_of_lt (this.2.1.1 z (hG z hz))
  intro x hx
  obtain ⟨z, hz, -, h2⟩ := h.inv.bwd x hx
  exact h2.trans (h.inv.fwd z (h.inv.gray z hz) v hv (hle z hz))

theorem visitAdj_spec {rec : TS → Nat → Option TS} {G : List Nat} {s0 : TS} {v : Nat} (hG : ∀ x ∈ G, x ∈ s0.stack)
    (hv0 : s0.unseen v = true)
    (hrec : ∀ s w, TInv N adj (v :: G) s → s.unseen w = true → w < N → (∀ x ∈ s.stack, R adj x w) →
      (∀ x, s0.unseen x = false → s.unseen x = false) → s.unseen v = false →
      ∃ s', rec s w = some s' ∧ TPost N adj (v :: G) s w s') :
    ∀ (ws pr : List Nat) (s : TS), (∀ w ∈ ws, w ∈ adj v) → (∀ w ∈ ws, w < N) → LInv N adj G s0 v pr s →
      ∃ s', visitAdj N rec v ws s = some s' ∧ LInv N adj G s0 v (ws.reverse ++ pr) s' := by
  intro ws
  induction ws with
  | nil => intro pr s _ _ h; exact ⟨s, rfl, h⟩
  | cons w ws ih =>
    intro pr s hadj hN h
    have hwN := hN w List.mem_cons_self
    have hwa := hadj w List.mem_cons_self
    have happ : (w :: ws).reverse ++ pr = ws.reverse ++ (w :: pr) := by simp
    rw [happ]
    simp only [visitAdj, if_pos hwN]
    have hsub : ∀ x ∈ ws, x ∈ adj v := fun x hx => hadj x (List.mem_cons_of_mem _ hx)
    have hsubN : ∀ x ∈ ws, x < N := fun x hx => hN x (List.mem_cons_of_mem _ hx)
    obtain ⟨new, hst, hnew, hedge⟩ := h.new
    have hvst : v ∈ s.stack := by rw [hst]; simp
    have hvs : s.unseen v = false := h.inv.vis v hvst
    by_cases hw : s.unseen w = true
    · rw [if_pos hw]
      obtain ⟨s2, e2, p⟩ := hrec s w h.inv hw hwN
        (fun x hx => (h.reach_top hG x hx).tail hwa) h.vis hvs
      rw [e2]
      obtain ⟨l1, l2, l3, l4, l5, l6⟩ := lower_spec s2 v (s2.low w)
      have hlowv : s2.low v = s.low v := (p.keep v hvs).2
      have hdfsv : s2.dfs v = s.dfs v := (p.keep v hvs).1
      obtain ⟨new2, hst2, hnew2, hedge2⟩ := p.new
      have hdst : ∀ x ∈ s.stack, s2.dfs x = s.dfs x := fun x hx => (p.keep x (h.inv.vis x hx)).1
      have hs0st : ∀ x ∈ s0.stack, x ∈ s.stack := fun x hx => by rw [hst]; simp [hx]
      refine ih (w :: pr) _ hsub hsubN ⟨p.inv.lower _ _, ⟨new2 ++ new, ?_, ?_, ?_⟩, ?_, ?_, ?_, ?_, ?_, ?_, ?_⟩
      · rw [l3, hst2, hst]; simp
      · intro y hy
        rcases List.mem_append.1 hy with hy | hy
        · by_contra hc
          have := h.vis y (by simpa using hc)
          rw [hnew2 y hy] at this
          simp at this
        · exact hnew y hy
      · intro y hy z hz hz0
        rw [l1, l5, hlowv]
        rcases List.mem_append.1 hy with hy | hy
        · exact Nat.le_trans (Nat.min_le_right _ _) (hedge2 y hy z hz (hs0st z hz0))
        · rw [hdst z (hs0st z hz0)]
          exact Nat.le_trans (Nat.min_le_left _ _) (hedge y hy z hz hz0)
      · intro x hx; rw [l4]; exact p.vis x (h.vis x hx)
      · intro x hx
        have hxv : x ≠ v := fun e => by rw [e, hv0] at hx; simp at hx
        rw [l5, l2 x hxv, (p.keep x (h.vis x hx)).1, (p.keep x (h.vis x hx)).2]
        exact h.keep x hx
      · rw [l5, hdfsv]; exact h.dfs
      · rw [l1, l5, hdfsv, hlowv]; exact Nat.le_trans (Nat.min_le_left _ _) h.low_le
      · rw [l1, l3, l5, hlowv]
        rcases Nat.le_total (s.low v) (s2.low w) with hle | hle
        · rw [Nat.min_eq_left hle]
          obtain ⟨z, hz, h1, h2⟩ := h.wit
          exact ⟨z, by rw [hst2]; exact List.mem_append_right _ hz, by rw [h1, hdst z hz], h2⟩
        · rw [Nat.min_eq_right hle]
          rcases p.res with ⟨-, h2⟩ | ⟨z, hz, h1, h2⟩
          · exfalso
            have := h.low_le
            have := p.dfs
            have := h.inv.lt v hvst
            omega
          · exact ⟨z, by rw [hst2]; exact List.mem_append_right _ hz, h1, .head hwa h2⟩
      · intro x hx
        rw [l1, l3, l4, l5, hlowv]
        rcases List.mem_cons.1 hx with rfl | hx
        · exact ⟨p.seen, fun _ => Nat.le_trans (Nat.min_le_right _ _) p.low_le⟩
        · obtain ⟨h1, h2⟩ := h.proc x hx
          refine ⟨p.vis x h1, fun hm => ?_⟩
          have hxs : x ∈ s.stack := by
            rw [hst2] at hm
            rcases List.mem_append.1 hm with hm | hm
            · have := hnew2 x hm
              rw [h1] at this; simp at this
            · exact hm
          rw [hdst x hxs]
          exact Nat.le_trans (Nat.min_le_left _ _) (h2 hxs)
      · intro x hx h0
        rw [l4] at hx
        by_cases hxs : s.unseen x = true
        · exact .head hwa (p.reach x hx hxs)
        · exact h.reach x (by simpa using hxs) h0
    · rw [if_neg hw]
      have hw' : s.unseen w = false := by simpa using hw
      by_cases hon : s.onS w = true
      · rw [if_pos hon]
        have hws := (h.inv.onS w).1 hon
        obtain ⟨l1, l2, l3, l4, l5, l6⟩ := lower_spec s v (s.dfs w)
        refine ih (w :: pr) _ hsub hsubN ⟨h.inv.lower _ _, ⟨new, ?_, hnew, ?_⟩, ?_, ?_, ?_, ?_, ?_, ?_, ?_⟩
        · rw [l3, hst]
        · intro y hy z hz hz0
          rw [l1, l5]
          exact Nat.le_trans (Nat.min_le_left _ _) (hedge y hy z hz hz0)
        · intro x hx; rw [l4]; exact h.vis x hx
        · intro x hx
          have hxv : x ≠ v := fun e => by rw [e, hv0] at hx; simp at hx
          rw [l5, l2 x hxv]; exact h.keep x hx
        · rw [l5]; exact h.dfs
        · rw [l1, l5]; exact Nat.le_trans (Nat.min_le_left _ _) h.low_le
        · rw [l1, l3, l5]
          rcases Nat.le_total (s.low v) (s.dfs w) with hle | hle
          · rw [Nat.min_eq_left hle]; exact h.wit
          · rw [Nat.min_eq_right hle]; exact ⟨w, hws, rfl, .single hwa⟩
        · intro x hx
          rw [l1, l3, l4, l5]
          rcases List.mem_cons.1 hx with rfl | hx
          · exact ⟨hw', fun _ => Nat.min_le_right _ _⟩
          · obtain ⟨h1, h2⟩ := h.proc x hx
            exact ⟨h1, fun hm => Nat.le_trans (Nat.min_le_left _ _) (h2 hm)⟩
        · intro x hx h0
          rw [l4] at hx
          exact h.reach x hx h0
      · rw [if_neg hon]
        refine ih (w :: pr) s hsub hsubN { h with proc := fun x hx => ?_ }
        rcases List.mem_cons.1 hx with rfl | hx
        · exact ⟨hw', fun hm => absurd ((h.inv.onS x).2 hm) hon⟩
        · exact h.proc x hx

theorem popScc_spec (v : Nat) (rest : List Nat) : ∀ (pre : List Nat) (s : TS), v ∉ pre →
    ∃ s', popScc v (pre ++ v :: rest) s = some s' ∧ s'.stack = rest ∧
      (∀ x, s'.onS x = if x ∈ pre ++ [v] then false else s.onS x) ∧
      (∀ x, s'.scc x = if x ∈ pre ++ [v] then some s.num else s.scc x) ∧
      s'.maxdfs = s.maxdfs ∧ s'.unseen = s.unseen ∧ s'.dfs = s.dfs ∧ s'.low = s.low ∧ s'.num = s.num := by
  intro pre
  induction pre with
  | nil =>
    intro s _
    refine ⟨{ s with
      stack := rest
      onS := Function.update s.onS v false
      scc := Function.update s.scc v (some s.num) }, by simp only [List.nil_append, popScc, if_pos],
      rfl, ?_, ?_, rfl, rfl, rfl, rfl, rfl⟩ <;>
    · intro x
      by_cases hx : x = v <;> simp [hx]
  | cons w pre ih =>
    intro s hv
    have hw : w ≠ v := fun e => hv (e ▸ List.mem_cons_self)
    have hv' : v ∉ pre := fun hm => hv (List.mem_cons_of_mem _ hm)
    obtain ⟨s', e, h1, h2, h3, h4⟩ := ih
      { s with
        stack := pre ++ v :: rest
        onS := Function.update s.onS w false
        scc := Function.update s.scc w (some s.num) } hv'
    refine ⟨s', ?_, h1, ?_, ?_, h4⟩
    · simp only [List.cons_append, popScc, if_neg hw]; exact e
    · intro x
      rw [h2 x]
      by_cases hx : x ∈ pre ++ [v]
      · rw [if_pos hx, if_pos (by simp at hx ⊢; tauto)]
      · by_cases hxw : x = w
        · subst hxw; rw [if_neg hx]; simp
        · rw [if_neg hx, if_neg (by simp at hx ⊢; tauto)]; simp [hxw]
    · intro x
      rw [h3 x]
      by_cases hx : x ∈ pre ++ [v]
      · rw [if_pos hx, if_pos (by simp at hx ⊢; tauto)]
      · by_cases hxw : x = w
        · subst hxw; rw [if_neg hx]; simp
        · rw [if_neg hx, if_neg (by simp at hx ⊢; tauto)]; simp [hxw]

/-- What has been assigned to a component leads only to what has been assigned to a component. -/
theorem TInv.closed {G s} (h : TInv N adj G s) {x y : Nat} (hr : R adj x y) (h1 : s.unseen x = false)
    (h2 : x ∉ s.stack) : s.unseen y = false ∧ y ∉ s.stack := by
  induction hr with
  | refl => exact ⟨h1, h2⟩
  | tail _ hbc ih => exact h.done _ ih.1 ih.2 _ hbc

theorem finish {G s0 v s} (hI0 : TInv N adj G s0) (hv0 : s0.unseen v = true)
    (h : LInv N adj G s0 v ((adj v).reverse ++ []) s) : ∃ s',
    (if s.low v = s.dfs v then (popScc v s.stack s).map fun s => { s with num := s.num + 1 } else some s) = some s' ∧
    TPost N adj G s0 v s' := by
  have hG := hI0.gray
  obtain ⟨new, hst, hnew, hedge⟩ := h.new
  have hvst : v ∈ s.stack := by rw [hst]; simp
  have hvs : s.unseen v = false := h.inv.vis v hvst
  have hsorted := h.inv.sorted
  rw [hst, List.pairwise_append, List.pairwise_cons] at hsorted
  obtain ⟨so1, ⟨so2, so3⟩, so4⟩ := hsorted
  have hvnew : v ∉ new := fun hm => by
    have := so4 v hm v List.mem_cons_self
    omega
  have hprocv : ∀ y ∈ adj v, s.unseen y = false ∧ (y ∈ s.stack → s.low v ≤ s.dfs y) := fun y hy =>
    h.proc y (by simpa using hy)
  have hs0v : v ∉ s0.stack := fun hm => by
    have := hI0.vis v hm
    simp [hv0] at this
  have hblack : ∀ x, s.unseen x = false → x ∉ G → ∀ y ∈ adj x, s.unseen y = false := by
    intro x hx hxG y hy
    by_cases hxv : x = v
    · subst hxv; exact (hprocv y hy).1
    · exact h.inv.black x hx (by simp [hxv, hxG]) y hy
  by_cases hlow : s.low v = s.dfs v
  · rw [if_pos hlow]
    obtain ⟨s', e, p1, p2, p3, p4, p5, p6, p7, p8⟩ := popScc_spec v s0.stack new s hvnew
    rw [← hst] at e
    rw [e]
    have hcomp : ∀ x, x ∈ s.stack ↔ x ∈ new ++ [v] ∨ x ∈ s0.stack := by intro x; rw [hst]; simp; tauto
    have hdisj : ∀ x, x ∈ new ++ [v] → x ∉ s0.stack := by
      intro x hx hx0
      rcases List.mem_append.1 hx with hx | hx
      · have := hI0.vis x hx0
        rw [hnew x hx] at this; simp at this
      · rw [List.mem_singleton] at hx; exact hs0v (hx ▸ hx0)
    have hnG : ∀ x ∈ new, x ∉ v :: G := by
      intro x hx hm
      rcases List.mem_cons.1 hm with rfl | hm
      · exact hvnew hx
      · exact hdisj x (List.mem_append_left _ hx) (hG x hm)
    have hge : ∀ x ∈ new ++ [v], s.dfs v ≤ s.dfs x := by
      intro x hx
      rcases List.mem_append.1 hx with hx | hx
      · exact Nat.le_of_lt (so4 x hx v List.mem_cons_self)
      · rw [List.mem_singleton] at hx; rw [hx]
    have hmut : ∀ x ∈ new ++ [v], ∀ y ∈ new ++ [v], R adj x y := by
      intro x hx y hy
      exact (h.reach_top hG x ((hcomp x).2 (.inl hx))).trans
        (h.inv.fwd v hvst y ((hcomp y).2 (.inl hy)) (hge y hy))
    have hold : ∀ x k, s.scc x = some k → s.unseen x = false ∧ x ∉ s.stack := fun x k hk =>
      (h.inv.scc_iff x).1 (by simp [hk])
    have hnone : ∀ x ∈ new ++ [v], ∀ y k, s.scc y = some k → ¬ R adj y x := by
      intro x hx y k hk hr
      obtain ⟨h1, h2⟩ := hold y k hk
      exact (h.inv.closed hr h1 h2).2 ((hcomp x).2 (.inl hx))
    refine ⟨{ s' with num := s'.num + 1 }, rfl, ⟨⟨?_, ?_, ?_, ?_, ?_, ?_, ?_, ?_, ?_, ?_, ?_, ?_, ?_, ?_, ?_⟩, ?_, ?_,
      ?_, ?_, ?_, ?_, ?_, ?_⟩⟩
    · show s'.stack.Pairwise fun a b => s'.dfs b < s'.dfs a
      rw [p1, p6]; exact so3
    · intro x
      show s'.onS x = true ↔ x ∈ s'.stack
      rw [p2, p1]
      by_cases hx : x ∈ new ++ [v]
      · rw [if_pos hx]; simpa using hdisj x hx
      · rw [if_neg hx, h.inv.onS, hcomp]; tauto
    · show ∀ x ∈ s'.stack, s'.unseen x = false
      rw [p1, p5]
      exact fun x hx => h.inv.vis x ((hcomp x).2 (.inr hx))
    · show ∀ x ∈ s'.stack, s'.dfs x < s'.maxdfs
      rw [p1, p4, p6]
      exact fun x hx => h.inv.lt x ((hcomp x).2 (.inr hx))
    · show ∀ x ∈ G, x ∈ s'.stack
      rw [p1]; exact hG
    · show ∀ x, s'.unseen x = false → x < N
      rw [p5]; exact h.inv.visN
    · show ∀ x, s'.unseen x = false → x ∉ G → ∀ y ∈ adj x, s'.unseen y = false
      rw [p5]; exact hblack
    · show ∀ x, s'.unseen x = false → x ∉ s'.stack → ∀ y ∈ adj x, s'.unseen y = false ∧ y ∉ s'.stack
      rw [p5, p1]
      intro x hx hx0 y hy
      by_cases hxs : x ∈ s.stack
      · have hxc : x ∈ new ++ [v] := by
          rcases (hcomp x).1 hxs with h | h
          · exact h
          · exact absurd h hx0
        refine ⟨hblack x hx (fun hm => hx0 (hG x hm)) y hy, fun hy0 => ?_⟩
        have hlt := so2 y hy0
        have hys : y ∈ s.stack := (hcomp y).2 (.inr hy0)
        rcases List.mem_append.1 hxc with hxn | hxv
        · have := hedge x hxn y hy hy0
          omega
        · rw [List.mem_singleton] at hxv
          subst hxv
          have := (hprocv y hy).2 hys
          omega
      · obtain ⟨h1, h2⟩ := h.inv.done x hx hxs y hy
        exact ⟨h1, fun hm => h2 ((hcomp y).2 (.inr hm))⟩
    · show ∀ x ∈ s'.stack, ∀ y ∈ s'.stack, s'.dfs x ≤ s'.dfs y → R adj x y
      rw [p1, p6]
      exact fun x hx y hy => h.inv.fwd x ((hcomp x).2 (.inr hx)) y ((hcomp y).2 (.inr hy))
    · show ∀ y ∈ s'.stack, ∃ x ∈ G, s'.dfs x ≤ s'.dfs y ∧ R adj y x
      rw [p1, p6]
      intro y hy
      obtain ⟨x, hx, h1, h2⟩ := h.inv.bwd y ((hcomp y).2 (.inr hy))
      rcases List.mem_cons.1 hx with rfl | hx
      · have := so2 y hy; omega
      · exact ⟨x, hx, h1, h2⟩
    · intro x
      show s'.scc x ≠ none ↔ s'.unseen x = false ∧ x ∉ s'.stack
      rw [p3, p5, p1]
      by_cases hx : x ∈ new ++ [v]
      · rw [if_pos hx]
        simp [hdisj x hx, h.inv.vis x ((hcomp x).2 (.inl hx))]
      · rw [if_neg hx, h.inv.scc_iff, hcomp]; tauto
    · intro x k
      show s'.scc x = some k → k < s'.num + 1
      rw [p3, p8]
      by_cases hx : x ∈ new ++ [v]
      · rw [if_pos hx]; intro hk; simp at hk; omega
      · rw [if_neg hx]; intro hk; have := h.inv.scc_lt x k hk; omega
    · intro x y k l
      show s'.scc x = some k → s'.scc y = some l → _
      rw [p3, p3]
      by_cases hx : x ∈ new ++ [v] <;> by_cases hy : y ∈ new ++ [v]
      · rw [if_pos hx, if_pos hy]
        intro hk hl
        simp at hk hl
        exact ⟨fun _ => ⟨hmut x hx y hy, hmut y hy x hx⟩, fun _ => by omega⟩
      · rw [if_pos hx, if_neg hy]
        intro hk hl
        simp at hk
        have := h.inv.scc_lt y l hl
        exact ⟨fun e => by omega, fun e => absurd e.2 (hnone x hx y l hl)⟩
      · rw [if_neg hx, if_pos hy]
        intro hk hl
        simp at hl
        have := h.inv.scc_lt x k hk
        exact ⟨fun e => by omega, fun e => absurd e.1 (hnone y hy x k hk)⟩
      · rw [if_neg hx, if_neg hy]; exact h.inv.scc_eq x y k l
    · intro x y k l
      show s'.scc x = some k → s'.scc y = some l → _
      rw [p3, p3]
      by_cases hx : x ∈ new ++ [v] <;> by_cases hy : y ∈ new ++ [v]
      · rw [if_pos hx, if_pos hy]
        intro hk hl _
        simp at hk hl
        omega
      · rw [if_pos hx, if_neg hy]
        intro hk hl _
        simp at hk
        have := h.inv.scc_lt y l hl
        omega
      · rw [if_neg hx, if_pos hy]
        intro hk hl hr
        exact absurd hr (hnone y hy x k hk)
      · rw [if_neg hx, if_neg hy]; exact h.inv.scc_top x y k l
    · intro k hk
      have hk : k < s'.num + 1 := hk
      show ∃ x, s'.scc x = some k
      rw [p8] at hk
      rcases Nat.lt_succ_iff_lt_or_eq.1 hk with hk | rfl
      · obtain ⟨x, hx⟩ := h.inv.scc_surj k hk
        refine ⟨x, ?_⟩
        rw [p3, if_neg, hx]
        intro hm
        exact (hold x k hx).2 ((hcomp x).2 (.inl hm))
      · exact ⟨v, by rw [p3, if_pos (by simp)]⟩
    · exact ⟨[], by show s'.stack = _; rw [p1]; rfl, by simp, by simp⟩
    · show ∀ x, _ → s'.unseen x = false
      rw [p5]; exact h.vis
    · show s'.unseen v = false
      rw [p5]; exact hvs
    · show ∀ x, _ → s'.dfs x = _ ∧ s'.low x = _
      rw [p6, p7]; exact h.keep
    · show s'.dfs v = _
      rw [p6]; exact h.dfs
    · show s'.low v ≤ s'.dfs v
      rw [p6, p7]; exact h.low_le
    · left
      show v ∉ s'.stack ∧ s'.low v = s'.dfs v
      rw [p1, p6, p7]; exact ⟨hs0v, hlow⟩
    · show ∀ x, s'.unseen x = false → _
      rw [p5]; exact h.reach
  · rw [if_neg hlow]
    have hlt : s.low v < s.dfs v := Nat.lt_of_le_of_ne h.low_le hlow
    obtain ⟨z, hz, hz1, hz2⟩ := h.wit
    refine ⟨s, rfl, ⟨{ h.inv with gray := ?_, black := hblack, bwd := ?_ }, ⟨new ++ [v], by rw [hst]; simp, ?_, ?_⟩,
      h.vis, hvs, h.keep, h.dfs, h.low_le, .inr ⟨z, ?_, hz1, hz2⟩, h.reach⟩⟩
    · exact fun x hx => h.inv.gray x (List.mem_cons_of_mem _ hx)
    · intro y hy
      obtain ⟨x, hx, h1, h2⟩ := h.inv.bwd y hy
      rcases List.mem_cons.1 hx with rfl | hx
      · obtain ⟨x', hx', h3, h4⟩ := h.inv.bwd z hz
        rcases List.mem_cons.1 hx' with rfl | hx'
        · omega
        · exact ⟨x', hx', by omega, (h2.trans hz2).trans h4⟩
      · exact ⟨x, hx, h1, h2⟩
    · intro y hy
      rcases List.mem_append.1 hy with hy | hy
      · exact hnew y hy
      · rw [List.mem_singleton] at hy; rw [hy]; exact hv0
    · intro y hy w hw hw0
      rcases List.mem_append.1 hy with hy | hy
      · exact hedge y hy w hw hw0
      · rw [List.mem_singleton] at hy
        subst hy
        exact (hprocv w hw).2 (by rw [hst]; simp [hw0])
    · rw [hst] at hz
      rcases List.mem_append.1 hz with hz | hz
      · have := so4 z hz v List.mem_cons_self; omega
      · rcases List.mem_cons.1 hz with rfl | hz
        · omega
        · exact hz

/-- Vertices that have not been seen. -/
def unseenSet (N : Nat) (s : TS) : Finset Nat := (Finset.range N).filter fun x => s.unseen x = true

theorem tarjan_spec (hadj : ∀ v < N, ∀ w ∈ adj v, w < N) : ∀ (f : Nat) (s : TS) (v : Nat) (G : List Nat),
    TInv N adj G s → s.unseen v = true → v < N → (∀ x ∈ s.stack, R adj x v) → (unseenSet N s).card < f + 1 →
    ∃ s', tarjan N adj f s v = some s' ∧ TPost N adj G s v s' := by
  intro f
  induction f with
  | zero =>
    intro s v G _ hv hN _ hc
    have : v ∈ unseenSet N s := by simp [unseenSet, hN, hv]
    have := Finset.card_pos.2 ⟨v, this⟩
    omega
  | succ f ih =>
    intro s v G h hv hN hr hc
    obtain ⟨s1, e1, l1⟩ := visitAdj_spec (N := N) (adj := adj) (rec := tarjan N adj f) (s0 := s) h.gray hv
      (fun s' w hI hw hwN hrw hvis hv' => ih s' w _ hI hw hwN hrw (by
        have : unseenSet N s' ⊂ unseenSet N s := by
          refine Finset.ssubset_iff_subset_ne.2 ⟨fun x hx => ?_, fun e => ?_⟩
          · simp only [unseenSet, Finset.mem_filter, Finset.mem_range] at hx ⊢
            refine ⟨hx.1, ?_⟩
            by_contra hc
            have := hvis x (by simpa using hc)
            simp [hx.2] at this
          · have hm : v ∈ unseenSet N s := by simp [unseenSet, hN, hv]
            rw [← e] at hm
            simp [unseenSet, hv'] at hm
        have := Finset.card_lt_card this
        omega)) (adj v) [] (s.enter v) (fun _ h => h) (hadj v hN) (enter_linv h hv hN hr)
    obtain ⟨s2, e2, p⟩ := finish h hv l1
    exact ⟨s2, by simp only [tarjan, e1]; exact e2, p⟩

end Verif.Scc
