import Verif.Scc
import Mathlib.Data.List.Nodup
import Mathlib.Data.List.Perm.Basic
import Mathlib.Data.List.Sort
import Mathlib.Data.Finset.Dedup
import Mathlib.Tactic.Linarith
import Mathlib.Algebra.BigOperators.Group.List.Basic

/-! # Model of the graph of components, the reachability table and the cyclicity analysis -/

namespace Verif.Scc

open Relation

/-- The calls of `tarjan`, one for each vertex that has not been seen (src/sat/disabling_graph.cpp 65-66). -/
def tarjanAll (N : Nat) (adj : Nat → List Nat) (fuel : Nat) : List Nat → TS → Option TS
  | [], s => some s
  | v :: vs, s =>
    if s.unseen v then
      match tarjan N adj fuel s v with
      | none => none
      | some s => tarjanAll N adj fuel vs s
    else tarjanAll N adj fuel vs s

/-- The arrays filled by the loops after `tarjan` (src/Model.cpp 2285-2319, src/sat/disabling_graph.cpp 68-93).
`tasks c` is the part of `sccToTasks[c]` written so far; its length is both `sccSize[c]` and `currentI[c]`. -/
structure Comps where
  tasks : Nat → List Nat
  /-- `numCyclicSccs`, without the components that have one vertex -/
  cyc : Nat

/-- The loop over all vertices (src/Model.cpp 2289-2296, 2308-2313).  Outcome `none`: a vertex without component is
met; the assertion fails or, without assertions, memory outside of the array is changed. -/
def fillComps (scc : Nat → Option Nat) : List Nat → Comps → Option Comps
  | [], c => some c
  | v :: vs, c =>
    match scc v with
    | none => none
    | some j =>
      let ts := c.tasks j ++ [v]
      fillComps scc vs ⟨Function.update c.tasks j ts, if ts.length = 2 then c.cyc + 1 else c.cyc⟩

/-- Result of `calcSCCs`. -/
structure Sccs where
  /-- `taskToSCC` -/
  scc : Nat → Option Nat
  /-- `numSCCs` -/
  num : Nat
  /-- `sccToTasks`, `sccSize` -/
  tasks : Nat → List Nat
  /-- `sccsCyclic` -/
  cyclic : List Nat
  /-- `numCyclicSccs`, the size of the array `sccsCyclic` -/
  numCyclic : Nat

/-- The components with one vertex that has an edge to itself (src/Model.cpp 2318-2332). -/
def selfLoops (adj : Nat → List Nat) (tasks : Nat → List Nat) (num : Nat) : List Nat :=
  (List.range num).filter fun i => (tasks i).length == 1 && (tasks i).any fun t => (adj t).contains t

/-- The part of `calcSCCs` after the search (src/Model.cpp 2285-2352).  Outcome `none`: undefined behaviour. -/
def finishSccs (N : Nat) (adj : Nat → List Nat) (s : TS) : Option Sccs := do
  let c ← fillComps s.scc (List.range N) ⟨fun _ => [], 0⟩
  let loops := selfLoops adj c.tasks s.num
  let cyclic := ((List.range s.num).filter fun i => decide (1 < (c.tasks i).length)) ++ loops
  if cyclic.length ≤ c.cyc + loops.length then
    some ⟨s.scc, s.num, c.tasks, cyclic, c.cyc + loops.length⟩
  else none

/-- `Model::calcSCCs` (src/Model.cpp 2265-2353).  The recursion depth is at most the number of vertices. -/
def calcSccs (N : Nat) (adj : Nat → List Nat) (junk : Nat → Nat) (init : Nat) : Option Sccs := do
  let s ← if init < N then tarjan N adj N (TS.init junk) init else none
  finishSccs N adj s

/-- `graph::calcSCCs` (src/sat/disabling_graph.cpp 51-101), which does not compute the cyclic components. -/
def calcSccsAll (N : Nat) (adj : Nat → List Nat) (junk : Nat → Nat) : Option (TS × Comps) := do
  let s ← tarjanAll N adj N (List.range N) (TS.init junk)
  let c ← fillComps s.scc (List.range N) ⟨fun _ => [], 0⟩
  return (s, c)

/-- `sccg[i]`, iterated (src/Model.cpp 2394-2413): the ascending list of the content of the set. -/
def sccSucc (N : Nat) (adj : Nat → List Nat) (S : Sccs) (i : Nat) : List Nat :=
  (List.range S.num).filter fun j => i != j &&
    (List.range N).any fun t => S.scc t == some i && (adj t).any fun t' => S.scc t' == some j

/-- `sccg_rev[j]`, iterated (src/Model.cpp 2394-2413). -/
def sccPred (N : Nat) (adj : Nat → List Nat) (S : Sccs) (j : Nat) : List Nat :=
  (List.range S.num).filter fun i => i != j &&
    (List.range N).any fun t => S.scc t == some i && (adj t).any fun t' => S.scc t' == some j

/-- Variables of the loop of `calcSCCGraph` (src/Model.cpp 2532-2545).  `reach t = none` stands for
`numReachable[t] == -1`; `stack` lists the vector with the last element first. -/
structure KSt where
  ready : Nat → Int
  stack : List Nat
  reach : Nat → Option (List Nat)

/-- `tReachable` (src/Model.cpp 2552-2568), iterated: the ascending list of its content.  Outcome `none`: the
assertion about the successors fails, or a component is empty. -/
def sccReach (last : Nat) (tasks : Nat → List Nat) (succ : List Nat) (reach : Nat → Option (List Nat)) (c : Nat) :
    Option (List Nat) := do
  let ls ← succ.mapM fun d => (tasks d).head?.bind reach
  return (List.range last).filter fun t => (tasks c).contains t || ls.any fun l => l.contains t

/-- Update of the stack (src/Model.cpp 2583-2588). -/
def decReady : List Nat → (Nat → Int) → List Nat → (Nat → Int) × List Nat
  | [], ready, st => (ready, st)
  | p :: ps, ready, st =>
    let r := Function.update ready p (ready p - 1)
    decReady ps r (if r p = 0 then p :: st else st)

/-- The loop of `calcSCCGraph` (src/Model.cpp 2547-2589). -/
def reachLoop (last : Nat) (tasks succ pred : Nat → List Nat) : Nat → KSt → Option KSt
  | 0, _ => none
  | f + 1, k =>
    match k.stack with
    | [] => some k
    | c :: st =>
      match sccReach last tasks (succ c) k.reach c with
      | none => none
      | some l =>
        let r := decReady (pred c) k.ready st
        reachLoop last tasks succ pred f ⟨r.1, r.2, fun t => if (tasks c).contains t then some l else k.reach t⟩

/-- `calcSCCGraph` (src/Model.cpp 2514-2620): the arrays `reachable`, `numReachable`.  `last` is `numActions` or
`numTasks`.  Outcome `none`: an assertion fails (2560, 2614) or undefined behaviour. -/
def reachTable (N : Nat) (adj : Nat → List Nat) (last : Nat) (S : Sccs) : Option (Nat → Option (List Nat)) := do
  let k ← reachLoop last S.tasks (sccSucc N adj S) (sccPred N adj S) (S.num + 1)
    ⟨fun i => (sccSucc N adj S i).length, ((List.range S.num).filter fun i => (sccSucc N adj S i).isEmpty).reverse,
      fun _ => none⟩
  if (List.range N).all fun t => (k.reach t).isSome then some k.reach else none

/-- The last loop of `analyseSCCcyclicity` (src/Model.cpp 2494-2499). -/
def acycLoop (succ : Nat → List Nat) : List Nat → (Nat → Bool) → Nat → Bool
  | [], a => a
  | i :: is, a =>
    if a i then acycLoop succ is (Function.update a i ((succ i).all a)) else acycLoop succ is a

/-- `sccIsAcyclic` as computed by `analyseSCCcyclicity` (src/Model.cpp 2485-2499). -/
def sccAcyclic (N : Nat) (adj : Nat → List Nat) (S : Sccs) : Nat → Bool :=
  acycLoop (sccSucc N adj S) (List.range S.num) fun i => !S.cyclic.contains i

/-! ## Correctness of the search -/

variable {N : Nat} {adj : Nat → List Nat}

theorem init_inv (junk : Nat → Nat) : TInv N adj [] (TS.init junk) := by
  refine ⟨?_, ?_, ?_, ?_, ?_, ?_, ?_, ?_, ?_, ?_, ?_, ?_, ?_, ?_, ?_⟩ <;> simp [TS.init]

theorem unseen_le (s : TS) : (unseenSet N s).card ≤ N :=
  Nat.le_trans (Finset.card_filter_le _ _) (by simp)

theorem stack_nil {s} (h : TInv N adj [] s) : s.stack = [] := by
  cases hs : s.stack with
  | nil => rfl
  | cons a l =>
    obtain ⟨x, hx, -⟩ := h.bwd a (by rw [hs]; simp)
    simp at hx

/-- What is known after the search: exactly the vertices in `V` have a component. -/
structure SccOK (adj : Nat → List Nat) (V : Nat → Prop) (scc : Nat → Option Nat) (num : Nat) : Prop where
  some_iff : ∀ x, scc x ≠ none ↔ V x
  lt : ∀ x k, scc x = some k → k < num
  eq : ∀ x y k l, scc x = some k → scc y = some l → (k = l ↔ R adj x y ∧ R adj y x)
  top : ∀ x y k l, scc x = some k → scc y = some l → R adj x y → l ≤ k
  surj : ∀ k < num, ∃ x, scc x = some k

theorem TInv.sccOK {s} (h : TInv N adj [] s) {V : Nat → Prop} (hV : ∀ x, s.unseen x = false ↔ V x) :
    SccOK adj V s.scc s.num :=
  ⟨fun x => by rw [h.scc_iff, stack_nil h, hV]; simp, h.scc_lt, h.scc_eq, h.scc_top, h.scc_surj⟩

/-- The search from one vertex terminates, stays in the arrays, and assigns components to exactly the vertices that
can be reached. -/
theorem tarjan_one (hadj : ∀ v < N, ∀ w ∈ adj v, w < N) (junk : Nat → Nat) {v : Nat} (hv : v < N) :
    ∃ s, tarjan N adj N (TS.init junk) v = some s ∧ SccOK adj (R adj v) s.scc s.num := by
  obtain ⟨s, e, p⟩ := tarjan_spec hadj N (TS.init junk) v [] (init_inv junk) rfl hv (by simp [TS.init])
    (Nat.lt_succ_of_le (unseen_le _))
  refine ⟨s, e, p.inv.sccOK fun x => ⟨fun hx => p.reach x hx rfl, fun hx => ?_⟩⟩
  have hst := stack_nil p.inv
  exact (p.inv.closed hx p.seen (by rw [hst]; simp)).1

theorem tarjanAll_spec (hadj : ∀ v < N, ∀ w ∈ adj v, w < N) : ∀ (vs : List Nat) (s : TS), (∀ v ∈ vs, v < N) →
    TInv N adj [] s → ∃ s', tarjanAll N adj N vs s = some s' ∧ TInv N adj [] s' ∧
      (∀ v, s.unseen v = false → s'.unseen v = false) ∧ ∀ v ∈ vs, s'.unseen v = false := by
  intro vs
  induction vs with
  | nil => intro s _ h; exact ⟨s, rfl, h, fun _ h => h, by simp⟩
  | cons v vs ih =>
    intro s hN h
    have hN' : ∀ w ∈ vs, w < N := fun w hw => hN w (List.mem_cons_of_mem _ hw)
    by_cases hv : s.unseen v = true
    · obtain ⟨s1, e1, p⟩ := tarjan_spec hadj N s v [] h hv (hN v List.mem_cons_self) (by rw [stack_nil h]; simp)
        (Nat.lt_succ_of_le (unseen_le _))
      obtain ⟨s', e, h1, h2, h3⟩ := ih s1 hN' p.inv
      refine ⟨s', by simp only [tarjanAll, if_pos hv, e1]; exact e, h1, fun w hw => h2 w (p.vis w hw), fun w hw => ?_⟩
      rcases List.mem_cons.1 hw with rfl | hw
      · exact h2 _ p.seen
      · exact h3 w hw
    · obtain ⟨s', e, h1, h2, h3⟩ := ih s hN' h
      refine ⟨s', by simp only [tarjanAll, if_neg hv]; exact e, h1, h2, fun w hw => ?_⟩
      rcases List.mem_cons.1 hw with rfl | hw
      · exact h2 _ (by simpa using hv)
      · exact h3 w hw

/-- The search from all vertices assigns a component to every vertex. -/
theorem tarjan_all (hadj : ∀ v < N, ∀ w ∈ adj v, w < N) (junk : Nat → Nat) :
    ∃ s, tarjanAll N adj N (List.range N) (TS.init junk) = some s ∧ SccOK adj (· < N) s.scc s.num := by
  obtain ⟨s, e, h1, -, h3⟩ := tarjanAll_spec hadj (List.range N) (TS.init junk) (by simp) (init_inv junk)
  exact ⟨s, e, h1.sccOK fun x => ⟨h1.visN x, fun hx => h3 x (by simpa using hx)⟩⟩

/-! ## The arrays -/

theorem fillComps_spec {scc : Nat → Option Nat} : ∀ (vs : List Nat) (c : Comps), (∀ v ∈ vs, scc v ≠ none) →
    ∃ c', fillComps scc vs c = some c' ∧ ∀ i, c'.tasks i = c.tasks i ++ vs.filter fun t => scc t == some i := by
  intro vs
  induction vs with
  | nil => intro c _; exact ⟨c, rfl, by simp⟩
  | cons v vs ih =>
    intro c hv
    cases hj : scc v with
    | none => exact absurd hj (hv v List.mem_cons_self)
    | some j =>
      obtain ⟨c', e, h⟩ := ih ⟨Function.update c.tasks j (c.tasks j ++ [v]),
        if (c.tasks j ++ [v]).length = 2 then c.cyc + 1 else c.cyc⟩ fun w hw => hv w (List.mem_cons_of_mem _ hw)
      refine ⟨c', by simp only [fillComps, hj]; exact e, fun i => ?_⟩
      rw [h i]
      by_cases hij : i = j
      · subst hij; simp [hj]
      · have : ¬ j = i := fun e => hij e.symm
        simp [hj, hij, this]

theorem fillComps_none {scc : Nat → Option Nat} : ∀ (vs : List Nat) (c : Comps) (v : Nat), v ∈ vs → scc v = none →
    fillComps scc vs c = none := by
  intro vs
  induction vs with
  | nil => simp
  | cons w vs ih =>
    intro c v hv hs
    cases hj : scc w with
    | none => simp [fillComps, hj]
    | some j =>
      simp only [fillComps, hj]
      refine ih _ v ?_ hs
      rcases List.mem_cons.1 hv with rfl | hv
      · simp [hs] at hj
      · exact hv

/-- The number of components with at least two vertices is counted correctly. -/
theorem fillComps_cyc {scc : Nat → Option Nat} {num : Nat} (hlt : ∀ x k, scc x = some k → k < num) :
    ∀ (vs : List Nat) (c c' : Comps), fillComps scc vs c = some c' →
      c.cyc = ((List.range num).filter fun i => decide (1 < (c.tasks i).length)).length →
      c'.cyc = ((List.range num).filter fun i => decide (1 < (c'.tasks i).length)).length := by
  intro vs
  induction vs with
  | nil => intro c c' e h; simp only [fillComps, Option.some.injEq] at e; rw [← e]; exact h
  | cons v vs ih =>
    intro c c' e h
    cases hj : scc v with
    | none => simp [fillComps, hj] at e
    | some j =>
      simp only [fillComps, hj] at e
      refine ih _ c' e ?_
      have hjl := hlt v j hj
      have key : ∀ (l : List Nat), l.Nodup → j ∈ l →
          (l.filter fun i => decide (1 < (Function.update c.tasks j (c.tasks j ++ [v]) i).length)).length =
          (l.filter fun i => decide (1 < (c.tasks i).length)).length +
            if (c.tasks j).length + 1 = 2 then 1 else 0 := by
        intro l hl
        induction l with
        | nil => simp
        | cons a l ihl =>
          intro ha
          have hnd := List.nodup_cons.1 hl
          by_cases haj : a = j
          · subst haj
            have hsame : (l.filter fun i => decide (1 < (Function.update c.tasks a (c.tasks a ++ [v]) i).length)) =
                l.filter fun i => decide (1 < (c.tasks i).length) := by
              apply List.filter_congr
              intro x hx
              have : x ≠ a := fun e => hnd.1 (e ▸ hx)
              rw [Function.update_of_ne this]
            rw [List.filter_cons, List.filter_cons, hsame]
            simp only [Function.update_self, List.length_append, List.length_singleton, decide_eq_true_eq]
            split_ifs <;> simp <;> omega
          · have hjl : j ∈ l := by
              rcases List.mem_cons.1 ha with h | h
              · exact absurd h.symm haj
              · exact h
            have := ihl hnd.2 hjl
            rw [List.filter_cons, List.filter_cons, Function.update_of_ne haj]
            split_ifs with h1 h2 h2 <;> simp_all <;> omega
      have := key (List.range num) List.nodup_range (by simpa using hjl)
      rw [this, ← h]
      simp only [List.length_append, List.length_singleton]
      split_ifs <;> rfl

/-- What `calcSCCs` guarantees. -/
structure SccsOK (N : Nat) (adj : Nat → List Nat) (S : Sccs) : Prop where
  ok : SccOK adj (· < N) S.scc S.num
  tasks : ∀ i, S.tasks i = (List.range N).filter fun t => S.scc t == some i
  cyclic : ∀ i, i ∈ S.cyclic ↔ ∃ t, S.scc t = some i ∧ TransGen (fun x y => y ∈ adj x) t t
  nodup : S.cyclic.Nodup
  numCyclic : S.numCyclic = S.cyclic.length

theorem R.trans_of_ne {x y : Nat} (h : R adj x y) (hne : x ≠ y) : TransGen (fun x y => y ∈ adj x) x y := by
  rcases reflTransGen_iff_eq_or_transGen.1 h with h | h
  · exact absurd h.symm hne
  · exact h

theorem finishSccs_spec (hadj : ∀ v < N, ∀ w ∈ adj v, w < N) {s : TS} (h : SccOK adj (· < N) s.scc s.num) :
    ∃ S, finishSccs N adj s = some S ∧ SccsOK N adj S ∧ S.scc = s.scc ∧ S.num = s.num := by
  obtain ⟨c, e, ht⟩ := fillComps_spec (scc := s.scc) (List.range N) ⟨fun _ => [], 0⟩
    fun v hv => (h.some_iff v).2 (by simpa using hv)
  have hcyc := fillComps_cyc h.lt _ _ _ e (by simp)
  have ht' : ∀ i, c.tasks i = (List.range N).filter fun t => s.scc t == some i := fun i => by rw [ht i]; simp
  have hmem : ∀ i t, t ∈ c.tasks i ↔ s.scc t = some i := by
    intro i t
    rw [ht' i, List.mem_filter, List.mem_range, beq_iff_eq]
    exact ⟨fun h => h.2, fun hh => ⟨(h.some_iff t).1 (by simp [hh]), hh⟩⟩
  have hnd : ∀ i, (c.tasks i).Nodup := fun i => by rw [ht' i]; exact List.nodup_range.filter _
  refine ⟨⟨s.scc, s.num, c.tasks, ((List.range s.num).filter fun i => decide (1 < (c.tasks i).length)) ++
    selfLoops adj c.tasks s.num, c.cyc + (selfLoops adj c.tasks s.num).length⟩, ?_, ⟨h, ht', fun i => ?_, ?_, ?_⟩, rfl, rfl⟩
  · simp [finishSccs, e, hcyc]
  · simp only [selfLoops, List.mem_append, List.mem_filter, List.mem_range, decide_eq_true_eq, Bool.and_eq_true,
      beq_iff_eq, List.any_eq_true, List.contains_iff_mem]
    constructor
    · rintro (⟨hi, hl⟩ | ⟨hi, hl, t, ht, hta⟩)
      · have : ∃ a b l, c.tasks i = a :: b :: l := by
          cases hc : c.tasks i with
          | nil => simp [hc] at hl
          | cons a l =>
            cases l with
            | nil => simp [hc] at hl
            | cons b l => exact ⟨a, b, l, rfl⟩
        obtain ⟨a, b, l, hc⟩ := this
        have ha := (hmem i a).1 (by rw [hc]; simp)
        have hb := (hmem i b).1 (by rw [hc]; simp)
        have hab : a ≠ b := by
          have := hnd i
          rw [hc] at this
          simp at this
          tauto
        have hR := (h.eq a b i i ha hb).1 rfl
        exact ⟨a, ha, (R.trans_of_ne hR.1 hab).trans (R.trans_of_ne hR.2 hab.symm)⟩
      · exact ⟨t, (hmem i t).1 ht, .single hta⟩
    · rintro ⟨t, ht, hT⟩
      have hi := h.lt t i ht
      have htm := (hmem i t).2 ht
      have hpos := List.length_pos_of_mem htm
      obtain ⟨u, hu, hut⟩ := TransGen.head'_iff.1 hT
      by_cases hl : 1 < (c.tasks i).length
      · exact .inl ⟨hi, hl⟩
      · right
        refine ⟨hi, by omega, t, htm, ?_⟩
        obtain ⟨k, hk⟩ : ∃ k, s.scc u = some k := by
          have := (h.some_iff u).2 (hadj t ((h.some_iff t).1 (by simp [ht])) u hu)
          cases hk : s.scc u with
          | some k => exact ⟨k, rfl⟩
          | none => exact absurd hk this
        have := (h.eq t u i k ht hk).2 ⟨.single hu, hut⟩
        subst this
        have hum := (hmem i u).2 hk
        have : u = t := by
          have h1 : (c.tasks i).length = 1 := by omega
          obtain ⟨a, ha⟩ := List.length_eq_one_iff.1 h1
          rw [ha] at htm hum
          simp at htm hum
          omega
        rw [this] at hu; exact hu
  · refine List.Nodup.append (List.nodup_range.filter _) (List.nodup_range.filter _) fun i h1 h2 => ?_
    simp only [selfLoops, List.mem_filter, decide_eq_true_eq, Bool.and_eq_true, beq_iff_eq] at h1 h2
    have := h1.2
    have := h2.2.1
    omega
  · simp [hcyc]

theorem calcSccs_spec (hadj : ∀ v < N, ∀ w ∈ adj v, w < N) (junk : Nat → Nat) {init : Nat} (hi : init < N)
    (hall : ∀ t < N, R adj init t) : ∃ S, calcSccs N adj junk init = some S ∧ SccsOK N adj S := by
  obtain ⟨s, e, h⟩ := tarjan_one hadj junk hi
  have hV : ∀ x, s.scc x ≠ none ↔ x < N := by
    intro x
    rw [h.some_iff]
    refine ⟨fun hr => ?_, hall x⟩
    induction hr with
    | refl => exact hi
    | tail _ hbc ih => exact hadj _ ih _ hbc
  have h' : SccOK adj (· < N) s.scc s.num := { h with some_iff := hV }
  obtain ⟨S, e2, h2, -⟩ := finishSccs_spec hadj h'
  exact ⟨S, by simp [calcSccs, hi, e, e2], h2⟩

/-- If some task cannot be obtained from the initial task, the behaviour is undefined. -/
theorem calcSccs_ub (hadj : ∀ v < N, ∀ w ∈ adj v, w < N) (junk : Nat → Nat) {init : Nat} (hi : init < N)
    {t : Nat} (ht : t < N) (hn : ¬ R adj init t) : calcSccs N adj junk init = none := by
  obtain ⟨s, e, h⟩ := tarjan_one hadj junk hi
  have : s.scc t = none := by
    by_contra hc
    exact hn ((h.some_iff t).1 hc)
  simp [calcSccs, hi, e, finishSccs, fillComps_none (scc := s.scc) (List.range N) _ t (by simpa using ht) this]

/-! ## The graph of components -/

variable {S : Sccs}

theorem SccsOK.get (h : SccsOK N adj S) {t : Nat} (ht : t < N) : ∃ k, S.scc t = some k := by
  have := (h.ok.some_iff t).2 ht
  cases hk : S.scc t with
  | some k => exact ⟨k, rfl⟩
  | none => exact absurd hk this

theorem SccsOK.lt (h : SccsOK N adj S) {t k : Nat} (ht : S.scc t = some k) : t < N :=
  (h.ok.some_iff t).1 (by simp [ht])

theorem SccsOK.mem_tasks (h : SccsOK N adj S) {i t : Nat} : t ∈ S.tasks i ↔ S.scc t = some i := by
  rw [h.tasks i, List.mem_filter, List.mem_range, beq_iff_eq]
  exact ⟨fun h => h.2, fun hh => ⟨h.lt hh, hh⟩⟩

theorem SccsOK.mem_succ (h : SccsOK N adj S) {i j : Nat} : j ∈ sccSucc N adj S i ↔
    i ≠ j ∧ ∃ t t', S.scc t = some i ∧ t' ∈ adj t ∧ S.scc t' = some j := by
  simp only [sccSucc, List.mem_filter, List.mem_range, Bool.and_eq_true, bne_iff_ne, List.any_eq_true, beq_iff_eq]
  constructor
  · rintro ⟨-, h1, t, -, h2, t', h3, h4⟩
    exact ⟨h1, t, t', h2, h3, h4⟩
  · rintro ⟨h1, t, t', h2, h3, h4⟩
    exact ⟨h.ok.lt _ _ h4, h1, t, h.lt h2, h2, t', h3, h4⟩

theorem SccsOK.mem_pred (h : SccsOK N adj S) {i j : Nat} : i ∈ sccPred N adj S j ↔ j ∈ sccSucc N adj S i := by
  rw [h.mem_succ]
  simp only [sccPred, List.mem_filter, List.mem_range, Bool.and_eq_true, bne_iff_ne, List.any_eq_true, beq_iff_eq]
  constructor
  · rintro ⟨-, h1, t, -, h2, t', h3, h4⟩
    exact ⟨h1, t, t', h2, h3, h4⟩
  · rintro ⟨h1, t, t', h2, h3, h4⟩
    exact ⟨h.ok.lt _ _ h2, h1, t, h.lt h2, h2, t', h3, h4⟩

theorem succ_nodup (i : Nat) : (sccSucc N adj S i).Nodup := List.nodup_range.filter _
theorem pred_nodup (i : Nat) : (sccPred N adj S i).Nodup := List.nodup_range.filter _

/-- Successors have smaller numbers. -/
theorem SccsOK.succ_lt (h : SccsOK N adj S) {i j : Nat} (hj : j ∈ sccSucc N adj S i) : j < i := by
  obtain ⟨h1, t, t', h2, h3, h4⟩ := h.mem_succ.1 hj
  have := h.ok.top t t' i j h2 h4 (.single h3)
  omega

/-- What a component leads to. -/
theorem SccsOK.reach_iff (hadj : ∀ v < N, ∀ w ∈ adj v, w < N) (h : SccsOK N adj S) {t t' i : Nat}
    (ht : S.scc t = some i) : R adj t t' ↔
      S.scc t' = some i ∨ ∃ j ∈ sccSucc N adj S i, ∃ u, S.scc u = some j ∧ R adj u t' := by
  constructor
  · intro hr
    induction hr using ReflTransGen.head_induction_on generalizing i with
    | refl => exact .inl ht
    | head hab hb ih =>
      rename_i a b
      obtain ⟨k, hk⟩ := h.get (hadj _ (h.lt ht) _ hab)
      by_cases hki : i = k
      · subst hki; exact ih hk
      · exact .inr ⟨k, h.mem_succ.2 ⟨hki, a, b, ht, hab, hk⟩, b, hk, hb⟩
  · rintro (hc | ⟨j, hj, u, hu, hr⟩)
    · exact ((h.ok.eq t t' i i ht hc).1 rfl).1
    · obtain ⟨-, a, b, h2, h3, h4⟩ := h.mem_succ.1 hj
      exact ((((h.ok.eq t a i i ht h2).1 rfl).1.tail h3).trans ((h.ok.eq b u j j h4 hu).1 rfl).1).trans hr

/-! ## The reachability table -/

theorem decReady_spec : ∀ (ps : List Nat) (ready : Nat → Int) (st : List Nat), ps.Nodup →
    (∀ i, (decReady ps ready st).1 i = ready i - if i ∈ ps then 1 else 0) ∧
    (∀ i, i ∈ (decReady ps ready st).2 ↔ i ∈ st ∨ i ∈ ps ∧ ready i = 1) ∧
    (st.Nodup → (∀ i ∈ ps, i ∉ st) → (decReady ps ready st).2.Nodup) := by
  intro ps
  induction ps with
  | nil => intro ready st _; simp [decReady]
  | cons p ps ih =>
    intro ready st hnd
    obtain ⟨hp, hnd⟩ := List.nodup_cons.1 hnd
    obtain ⟨h1, h2, h3⟩ := ih (Function.update ready p (ready p - 1))
      (if Function.update ready p (ready p - 1) p = 0 then p :: st else st) hnd
    have hne : ∀ i ∈ ps, i ≠ p := fun i hi e => hp (e ▸ hi)
    refine ⟨fun i => ?_, fun i => ?_, fun hs hd => ?_⟩
    · simp only [decReady]
      rw [h1 i]
      by_cases hi : i = p
      · subst hi; simp [hp]
      · simp [hi]
    · simp only [decReady]
      rw [h2 i]
      by_cases hi : i = p
      · subst hi
        simp only [Function.update_self, hp, false_and, or_false, List.mem_cons, true_or, true_and]
        split_ifs with hz
        · simp; omega
        · constructor
          · exact .inl
          · rintro (h | h)
            · exact h
            · omega
      · simp only [Function.update_of_ne hi, Function.update_self, List.mem_cons, hi, false_or]
        split_ifs with hz
        · simp [hi]
        · rfl
    · simp only [decReady]
      apply h3
      · split_ifs
        · exact List.nodup_cons.2 ⟨hd p List.mem_cons_self, hs⟩
        · exact hs
      · intro i hi
        split_ifs
        · simp [hne i hi, hd i (List.mem_cons_of_mem _ hi)]
        · exact hd i (List.mem_cons_of_mem _ hi)

/-- The entry of the table. -/
def Exact (adj : Nat → List Nat) (last t : Nat) (l : List Nat) : Prop :=
  l.Pairwise (· < ·) ∧ ∀ t', t' ∈ l ↔ t' < last ∧ R adj t t'

/-- Invariant of the loop; `D` are the components processed so far. -/
structure KInv (N : Nat) (adj : Nat → List Nat) (S : Sccs) (last : Nat) (D : List Nat) (k : KSt) : Prop where
  nodup : (D ++ k.stack).Nodup
  lt : ∀ i ∈ D ++ k.stack, i < S.num
  ready : ∀ i < S.num, k.ready i = ((sccSucc N adj S i).filter fun j => decide (j ∉ D)).length
  stack : ∀ i < S.num, i ∈ D ++ k.stack ↔ k.ready i = 0
  done : ∀ t i, S.scc t = some i → i ∈ D → ∃ l, k.reach t = some l ∧ Exact adj last t l

theorem sccReach_spec (hadj : ∀ v < N, ∀ w ∈ adj v, w < N) (h : SccsOK N adj S) {last c : Nat}
    {reach : Nat → Option (List Nat)} 
    (hr : ∀ j ∈ sccSucc N adj S c, ∀ t, S.scc t = some j → ∃ l, reach t = some l ∧ Exact adj last t l) :
    ∃ l, sccReach last S.tasks (sccSucc N adj S c) reach c = some l ∧
      ∀ t, S.scc t = some c → Exact adj last t l := by
  have hm : ∀ succ : List Nat, (∀ j ∈ succ, j ∈ sccSucc N adj S c) →
      ∃ ls, succ.mapM (fun d => (S.tasks d).head?.bind reach) = some ls ∧
        ∀ t', (∃ l ∈ ls, t' ∈ l) ↔ t' < last ∧ ∃ j ∈ succ, ∃ u, S.scc u = some j ∧ R adj u t' := by
    intro succ
    induction succ with
    | nil => intro _; exact ⟨[], rfl, by simp⟩
    | cons d ds ih =>
      intro hs
      obtain ⟨ls, e, hls⟩ := ih fun j hj => hs j (List.mem_cons_of_mem _ hj)
      have hd := hs d List.mem_cons_self
      obtain ⟨-, a, b, -, -, hb⟩ := h.mem_succ.1 hd
      have hbm := h.mem_tasks.2 hb
      obtain ⟨x, xs, hx⟩ : ∃ x xs, S.tasks d = x :: xs := by
        cases hx : S.tasks d with
        | nil => simp [hx] at hbm
        | cons x xs => exact ⟨x, xs, rfl⟩
      have hxs : S.scc x = some d := h.mem_tasks.1 (by rw [hx]; simp)
      obtain ⟨l, hl, hex⟩ := hr d hd x hxs
      refine ⟨l :: ls, by simp [hx, hl, e], fun t' => ?_⟩
      constructor
      · rintro ⟨l', hl', ht'⟩
        rcases List.mem_cons.1 hl' with rfl | hl'
        · obtain ⟨h1, h2⟩ := (hex.2 t').1 ht'
          exact ⟨h1, d, List.mem_cons_self, x, hxs, h2⟩
        · obtain ⟨h1, j, hj, h2⟩ := (hls t').1 ⟨l', hl', ht'⟩
          exact ⟨h1, j, List.mem_cons_of_mem _ hj, h2⟩
      · rintro ⟨h1, j, hj, u, hu, hut⟩
        rcases List.mem_cons.1 hj with rfl | hj
        · exact ⟨l, List.mem_cons_self, (hex.2 t').2 ⟨h1, ((h.ok.eq x u j j hxs hu).1 rfl).1.trans hut⟩⟩
        · obtain ⟨l', hl', h2⟩ := (hls t').2 ⟨h1, j, hj, u, hu, hut⟩
          exact ⟨l', List.mem_cons_of_mem _ hl', h2⟩
  obtain ⟨ls, e, hls⟩ := hm _ fun _ h => h
  refine ⟨_, by simp only [sccReach, e]; rfl, fun t ht => ⟨?_, fun t' => ?_⟩⟩
  · exact List.Pairwise.filter _ List.pairwise_lt_range
  · rw [h.reach_iff hadj ht]
    simp only [List.mem_filter, List.mem_range, Bool.or_eq_true, List.contains_iff_mem, List.any_eq_true]
    rw [h.mem_tasks, hls t']
    tauto

theorem reachLoop_spec (hadj : ∀ v < N, ∀ w ∈ adj v, w < N) (h : SccsOK N adj S) {last : Nat} :
    ∀ (f : Nat) (D : List Nat) (k : KSt), KInv N adj S last D k → S.num + 1 ≤ D.length + f →
      ∃ k', reachLoop last S.tasks (sccSucc N adj S) (sccPred N adj S) f k = some k' ∧
        ∃ D', KInv N adj S last D' k' ∧ k'.stack = [] := by
  intro f
  induction f with
  | zero =>
    intro D k hK hf
    have : D.length ≤ S.num := by
      have h1 : D.Nodup := (List.nodup_append.1 hK.nodup).1
      have h2 : D ⊆ List.range S.num := fun i hi => by simpa using hK.lt i (List.mem_append_left _ hi)
      have := (List.subperm_of_subset h1 h2).length_le
      simpa using this
    omega
  | succ f ih =>
    intro D k hK hf
    cases hst : k.stack with
    | nil => exact ⟨k, by simp [reachLoop, hst], D, hK, hst⟩
    | cons c st =>
      have hc : c ∈ D ++ k.stack := by rw [hst]; simp
      have hcn := hK.lt c hc
      have hcr := (hK.stack c hcn).1 hc
      have hnd := hK.nodup
      rw [hst] at hnd
      have hcD : c ∉ D := fun hm => by
        have := (List.nodup_append.1 hnd).2.2 c hm c (by simp)
        exact this rfl
      have hcst : c ∉ st := fun hm => by
        have := (List.nodup_append.1 hnd).2.1
        exact (List.nodup_cons.1 this).1 hm
      have hsuccD : ∀ j ∈ sccSucc N adj S c, j ∈ D := by
        intro j hj
        by_contra hjD
        have h0 := hK.ready c hcn
        rw [hcr] at h0
        have : j ∈ (sccSucc N adj S c).filter fun j => decide (j ∉ D) := by simp [hj, hjD]
        have := List.length_pos_of_mem this
        omega
      obtain ⟨l, el, hl⟩ := sccReach_spec hadj h (last := last) (c := c) (reach := k.reach)
        fun j hj t ht => hK.done t j ht (hsuccD j hj)
      obtain ⟨r1, r2, r3⟩ := decReady_spec (sccPred N adj S c) k.ready st (pred_nodup c)
      have hpredD : ∀ p ∈ sccPred N adj S c, p ∉ D ++ k.stack := by
        intro p hp hm
        have hs := h.mem_pred.1 hp
        have hpn : p < S.num := hK.lt p hm
        have h0 := hK.ready p hpn
        rw [(hK.stack p hpn).1 hm] at h0
        have : c ∈ (sccSucc N adj S p).filter fun j => decide (j ∉ D) := by simp [hs, hcD]
        have := List.length_pos_of_mem this
        omega
      have hready : ∀ i < S.num, (decReady (sccPred N adj S c) k.ready st).1 i =
          ((sccSucc N adj S i).filter fun j => decide (j ∉ c :: D)).length := by
        intro i hi
        rw [r1 i, hK.ready i hi]
        have key : ∀ ls : List Nat, ls.Nodup → (((ls.filter fun j => decide (j ∉ D)).length : Int) -
            if c ∈ ls then 1 else 0) = (ls.filter fun j => decide (j ∉ c :: D)).length := by
          intro ls hls
          induction ls with
          | nil => simp
          | cons a ls ihl =>
            obtain ⟨ha, hls⟩ := List.nodup_cons.1 hls
            have := ihl hls
            by_cases hac : a = c
            · subst hac
              simp only [ha, if_false] at this
              have h1 : ((a :: ls).filter fun j => decide (j ∉ D)) = a :: ls.filter fun j => decide (j ∉ D) := by
                simp [hcD]
              have h2 : ((a :: ls).filter fun j => decide (j ∉ a :: D)) = ls.filter fun j => decide (j ∉ a :: D) := by
                simp
              rw [h1, h2, if_pos List.mem_cons_self, List.length_cons]
              push_cast
              omega
            · have hca : c ≠ a := fun e => hac e.symm
              have h3 : (c ∈ a :: ls) ↔ c ∈ ls := by simp [hca]
              by_cases haD : a ∈ D
              · have h1 : ((a :: ls).filter fun j => decide (j ∉ D)) = ls.filter fun j => decide (j ∉ D) := by
                  simp [haD]
                have h2 : ((a :: ls).filter fun j => decide (j ∉ c :: D)) = ls.filter fun j => decide (j ∉ c :: D) := by
                  simp [haD]
                simp only [h1, h2, h3]
                exact this
              · have h1 : ((a :: ls).filter fun j => decide (j ∉ D)) = a :: ls.filter fun j => decide (j ∉ D) := by
                  simp [haD]
                have h2 : ((a :: ls).filter fun j => decide (j ∉ c :: D)) =
                    a :: ls.filter fun j => decide (j ∉ c :: D) := by
                  simp [haD, hac]
                simp only [h1, h2, h3, List.length_cons]
                push_cast
                omega
        rw [← key _ (succ_nodup i)]
        have : i ∈ sccPred N adj S c ↔ c ∈ sccSucc N adj S i := h.mem_pred
        simp only [this]
      obtain ⟨k', e', D', hK'⟩ := ih (c :: D)
        ⟨(decReady (sccPred N adj S c) k.ready st).1, (decReady (sccPred N adj S c) k.ready st).2,
          fun t => if (S.tasks c).contains t then some l else k.reach t⟩
        ⟨by
          refine List.nodup_append.2 ⟨List.nodup_cons.2 ⟨hcD, (List.nodup_append.1 hnd).1⟩, r3 ?_ ?_, ?_⟩
          · exact (List.nodup_cons.1 (List.nodup_append.1 hnd).2.1).2
          · intro i hi hm
            exact hpredD i hi (by rw [hst]; simp [hm])
          · rintro i hi j hj rfl
            rcases (r2 i).1 hj with hj' | ⟨hj', -⟩
            · rcases List.mem_cons.1 hi with rfl | hi
              · exact hcst hj'
              · exact (List.nodup_append.1 hnd).2.2 i hi i (by simp [hj']) rfl
            · rcases List.mem_cons.1 hi with rfl | hi
              · exact hpredD i hj' hc
              · exact hpredD i hj' (List.mem_append_left _ hi),
        by
          intro i hi
          rcases List.mem_append.1 hi with hi | hi
          · rcases List.mem_cons.1 hi with rfl | hi
            · exact hcn
            · exact hK.lt i (List.mem_append_left _ hi)
          · rcases (r2 i).1 hi with hi | ⟨hi, -⟩
            · exact hK.lt i (by rw [hst]; simp [hi])
            · obtain ⟨-, t, t', h2, -⟩ := h.mem_succ.1 (h.mem_pred.1 hi)
              exact h.ok.lt _ _ h2,
        hready,
        by
          intro i hi
          have hs := hK.stack i hi
          rw [hst] at hs
          show _ ↔ (decReady (sccPred N adj S c) k.ready st).1 i = 0
          rw [r1 i, List.mem_append, List.mem_cons, r2 i]
          rw [List.mem_append, List.mem_cons] at hs
          by_cases hp : i ∈ sccPred N adj S c
          · have hni := hpredD i hp
            rw [hst, List.mem_append, List.mem_cons] at hni
            rw [if_pos hp]
            constructor
            · rintro ((h | h) | h | h)
              · exact absurd (.inr (.inl h)) hni
              · exact absurd (.inl h) hni
              · exact absurd (.inr (.inr h)) hni
              · omega
            · intro h; exact .inr (.inr ⟨hp, by omega⟩)
          · rw [if_neg hp]
            simp only [hp, false_and, or_false, sub_zero]
            rw [← hs]
            tauto,
        by
          intro t i hti hi
          rcases List.mem_cons.1 hi with rfl | hi
          · exact ⟨l, by simp [h.mem_tasks.2 hti], hl t hti⟩
          · obtain ⟨l', h1, h2⟩ := hK.done t i hti hi
            have : t ∉ S.tasks c := fun hm => by
              rw [h.mem_tasks, hti] at hm
              cases hm
              exact hcD hi
            exact ⟨l', by simp [this, h1], h2⟩⟩ (by simp only [List.length_cons]; omega)
      refine ⟨k', ?_, D', hK'⟩
      simp only [reachLoop, hst, el]
      exact e'

/-- The table is complete and exact. -/
theorem reachTable_spec (hadj : ∀ v < N, ∀ w ∈ adj v, w < N) (h : SccsOK N adj S) (last : Nat) :
    ∃ Rt, reachTable N adj last S = some Rt ∧ ∀ t < N, ∃ l, Rt t = some l ∧ Exact adj last t l := by
  obtain ⟨k, e, D, hK, hst⟩ := reachLoop_spec hadj h (last := last) (S.num + 1) []
    ⟨fun i => (sccSucc N adj S i).length, ((List.range S.num).filter fun i => (sccSucc N adj S i).isEmpty).reverse,
      fun _ => none⟩
    ⟨by simpa using List.nodup_range.filter _, by simp; tauto, by simp, by intro i hi; simp [hi], by simp⟩ (by simp)
  have hall : ∀ i, i < S.num → i ∈ D := by
    intro i
    induction i using Nat.strong_induction_on with
    | _ i ih =>
      intro hi
      have h0 : k.ready i = 0 := by
        rw [hK.ready i hi]
        have : (sccSucc N adj S i).filter (fun j => decide (j ∉ D)) = [] := by
          rw [List.filter_eq_nil_iff]
          intro j hj
          have hlt := h.succ_lt hj
          simpa using ih j hlt (by omega)
        rw [this]; rfl
      have := (hK.stack i hi).2 h0
      rw [hst] at this
      simpa using this
  have hres : ∀ t < N, ∃ l, k.reach t = some l ∧ Exact adj last t l := by
    intro t ht
    obtain ⟨i, hi⟩ := h.get ht
    exact hK.done t i hi (hall i (h.ok.lt t i hi))
  refine ⟨k.reach, ?_, hres⟩
  simp only [reachTable, e]
  have : ((List.range N).all fun t => (k.reach t).isSome) = true := by
    rw [List.all_eq_true]
    intro t ht
    obtain ⟨l, hl, -⟩ := hres t (by simpa using ht)
    simp [hl]
  show (if _ then _ else _) = _
  rw [if_pos this]

/-! ## Cyclicity -/

theorem acycLoop_spec (succ : Nat → List Nat) (b : Nat → Bool) (Q : Nat → Prop) (n : Nat)
    (hs : ∀ i < n, ∀ j ∈ succ i, j < i) (hQ : ∀ i < n, Q i ↔ b i = true ∧ ∀ j ∈ succ i, Q j) :
    ∀ i < n, acycLoop succ (List.range n) b i = true ↔ Q i := by
  have key : ∀ (m k : Nat) (a : Nat → Bool), k + m = n → (∀ i < k, a i = true ↔ Q i) →
      (∀ i, k ≤ i → a i = b i) → ∀ i < n, acycLoop succ (List.range' k m) a i = true ↔ Q i := by
    intro m
    induction m with
    | zero => intro k a hk h1 _ i hi; exact h1 i (by omega)
    | succ m ih =>
      intro k a hk h1 h2
      have hkn : k < n := by omega
      have hall : (succ k).all a = true ↔ ∀ j ∈ succ k, Q j := by
        rw [List.all_eq_true]
        exact forall₂_congr fun j hj => h1 j (hs k hkn j hj)
      rw [List.range'_succ]
      by_cases hak : a k = true
      · simp only [acycLoop, if_pos hak]
        refine ih (k + 1) _ (by omega) (fun i hi => ?_) (fun i hi => ?_)
        · by_cases hik : i = k
          · subst hik
            rw [Function.update_self, hall, hQ i hkn, ← h2 i (Nat.le_refl _)]
            simp [hak]
          · rw [Function.update_of_ne hik]; exact h1 i (by omega)
        · rw [Function.update_of_ne (by omega)]; exact h2 i (by omega)
      · simp only [acycLoop, if_neg hak]
        refine ih (k + 1) _ (by omega) (fun i hi => ?_) (fun i hi => h2 i (by omega))
        by_cases hik : i = k
        · subst hik
          rw [hQ i hkn, ← h2 i (Nat.le_refl _)]
          simp [hak]
        · exact h1 i (by omega)
  rw [List.range_eq_range']
  exact key n 0 b (by omega) (by omega) fun _ _ => rfl

/-- A component is marked as acyclic iff no cycle can be reached from it. -/
theorem sccAcyclic_spec (hadj : ∀ v < N, ∀ w ∈ adj v, w < N) (h : SccsOK N adj S) {t i : Nat}
    (ht : S.scc t = some i) : sccAcyclic N adj S i = true ↔
      ∀ u, R adj t u → ¬ TransGen (fun x y => y ∈ adj x) u u := by
  have hi := h.ok.lt t i ht
  rw [sccAcyclic, acycLoop_spec (sccSucc N adj S) _
    (fun i => ∀ t, S.scc t = some i → ∀ u, R adj t u → ¬ TransGen (fun x y => y ∈ adj x) u u) S.num
    (fun i _ j hj => h.succ_lt hj) ?_ i hi]
  · constructor
    · exact fun hh => hh t ht
    · intro hh t' ht' u hu
      exact hh u (((h.ok.eq t t' i i ht ht').1 rfl).1.trans hu)
  · intro i _
    simp only [Bool.not_eq_true', List.contains_eq_mem, decide_eq_false_iff_not, h.cyclic]
    constructor
    · refine fun hh => ⟨?_, ?_⟩
      · rintro ⟨t, ht, hc⟩
        exact hh t ht t .refl hc
      · intro j hj u hu w hw
        obtain ⟨-, a, b, h2, h3, h4⟩ := h.mem_succ.1 hj
        exact hh a h2 w ((((h.ok.eq b u j j h4 hu).1 rfl).1.head h3).trans hw)
    · rintro ⟨h1, h2⟩ t ht u hu hc
      rcases (h.reach_iff hadj ht).1 hu with h3 | ⟨j, hj, w, hw, hwu⟩
      · exact h1 ⟨u, h3, hc⟩
      · exact h2 j hj w hw u hwu hc

end Verif.Scc
