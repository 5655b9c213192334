import Verif.DecomposeInv

/-! # Automatic progression (`progressEffectLess`, `progressOneModActions`)

`Chain` is an auxiliary notion for proofs: a sequence of action applications each of which
is either effect-free or forced. -/

namespace Verif.Prog

open Verif.Htn Verif.TaskCounter Relation

variable {P : Problem} {cfg : Cfg}

/-- Everything that holds of nodes during search. -/
structure Good (P : Problem) (cfg : Cfg) (h : Heap) (n : Node) : Prop where
  heap : HeapOK h
  node : NodeOK P h n
  counter : cfg.trackTasks = true → CounterOK h n

/-- One application of the applicable unconstrained step `u`. -/
def AStep (P : Problem) (cfg : Cfg) (h : Heap) (inst : Nat) (n : Node) (u : Nat) (n' : Node) : Prop :=
  ∃ idx f g g', g.heap = h ∧ g.inst = inst ∧ n.prims[idx]? = some u ∧
    P.Applicable (holds n.state) (taskOf h u) ∧ applyBase P cfg f g n idx = some (g', n')

/-- The step is effect-free or the only applicable one. -/
def Forced (P : Problem) (h : Heap) (n : Node) (u : Nat) : Prop :=
  P.EffectFree (taskOf h u) ∨
    (n.abs = [] ∧ ∀ v ∈ n.prims, P.Applicable (holds n.state) (taskOf h v) → v = u)

/-- Nothing can be done in this node. -/
def Dead (P : Problem) (h : Heap) (n : Node) : Prop :=
  n.abs = [] ∧ n.prims ≠ [] ∧ ∀ v ∈ n.prims, ¬ P.Applicable (holds n.state) (taskOf h v)

inductive Chain (P : Problem) (cfg : Cfg) (h : Heap) : Nat → Node → List Nat → Nat → Node → Prop
  | nil {i n} : Chain P cfg h i n [] i n
  | step {i n u n1 us j n'} (a : AStep P cfg h i n u n1) (f : Forced P h n u)
      (c : Chain P cfg h (i + 1) n1 us j n') : Chain P cfg h i n (u :: us) j n'
  | flag {i n us j n'} (d : Dead P h n)
      (c : Chain P cfg h i { n with reachable := false } us j n') : Chain P cfg h i n us j n'

theorem Chain.trans {h i n us j n1 vs k n'} (c : Chain P cfg h i n us j n1)
    (d : Chain P cfg h j n1 vs k n') : Chain P cfg h i n (us ++ vs) k n' := by
  induction c with
  | nil => exact d
  | step a f _ ih => exact .step a f (ih d)
  | flag e _ ih => exact .flag e (ih d)

theorem firsts_flag (n : Node) (b : Bool) : ({ n with reachable := b } : Node).firsts = n.firsts := rfl

theorem live_flag (h : Heap) (n : Node) (b : Bool) : live h { n with reachable := b } = live h n := rfl

theorem Good.flag {h n b} (g : Good P cfg h n) : Good P cfg h { n with reachable := b } :=
  ⟨g.heap, ⟨g.node.state_len, g.node.nodup, g.node.lt, g.node.prim, g.node.abs, g.node.min⟩,
    fun ht => g.counter ht⟩

theorem AStep.inv (hP : P.WF) (hcfg : cfg.Ok) {h inst n u n'} (hg : Good P cfg h n)
    (a : AStep P cfg h inst n u n') :
    u ∈ n.prims ∧ Good P cfg h n' ∧ live h n' = (live h n).erase u ∧
      holds n'.state = P.result (holds n.state) (taskOf h u) ∧ n'.reachable = true ∧
      P.Applicable (holds n.state) (taskOf h u) := by
  obtain ⟨idx, f, g, g', rfl, rfl, hu, happ, hb⟩ := a
  obtain ⟨hheap, hn, hl, hs⟩ := applyBase_inv hP hcfg hg.heap hg.node hb hu
  refine ⟨List.mem_of_getElem? hu, ⟨hg.heap, hn, fun ht => ?_⟩, hl, hs, ?_, happ⟩
  · have := applyBase_counter hP hcfg hg.heap hg.node hb ht (hg.counter ht)
    rwa [hheap] at this
  · obtain ⟨u, ps, pf, c, -, -, -, -, -, -, -, -, -, -, -, -, -, -, -, hr, -⟩ := applyBase_some hb
    exact hr

theorem AStep.sol {h inst n u n'} (a : AStep P cfg h inst n u n') :
    ∃ ps, h[u]? = some ps ∧ n'.sol = ⟨ps.task, none, inst, ps.par, ps.pos⟩ :: n.sol ∧
      n'.depth = n.depth + 1 ∧ n'.mixed = n.mixed + P.cost ps.task ∧
      n'.costs = n.costs + P.cost ps.task ∧ n.sol ≠ [] := by
  obtain ⟨idx, f, g, g', rfl, rfl, hu, happ, hb⟩ := a
  obtain ⟨u', ps, pf, c, hu', hps, -, -, hne, -, -, -, -, -, -, hsol, hd, hm, hc, -, -⟩ := applyBase_some hb
  obtain rfl : u = u' := by rw [hu] at hu'; exact Option.some.inj hu'
  exact ⟨ps, hps, hsol, hd, hm, hc, hne⟩

theorem AStep.sound (hP : P.WF) (hcfg : cfg.Ok) {h inst n u n' π k} (hg : Good P cfg h n)
    (a : AStep P cfg h inst n u n') (hs : NodeSol P h n' π k) :
    NodeSol P h n (taskOf h u :: π) k := by
  obtain ⟨hu, -, hl, hst, -, happ⟩ := a.inv hP hcfg hg
  obtain ⟨hul, hmin⟩ := hg.node.first_min hg.heap (List.mem_append_left _ hu)
  unfold NodeSol at hs
  rw [hl, hst] at hs
  exact hs.progress hul (hg.node.prim u hu) hmin happ

/-- Without unconstrained abstract task, the first action of any solution is an unconstrained
applicable step. -/
theorem NodeSol.first (hP : P.WF) {h n π k} (hg : Good P cfg h n) (habs : n.abs = [])
    (hne : n.prims ≠ []) (hs : NodeSol P h n π k) :
    ∃ u ∈ n.prims, P.Applicable (holds n.state) (taskOf h u) ∧ ∃ π', π = taskOf h u :: π' ∧
      SolvesN P ((live h n).erase u) (taskOf h) (TransGen (Edge h))
        (P.result (holds n.state) (taskOf h u)) π' k := by
  have hfirst : ∀ u ∈ live h n, (∀ v ∈ live h n, ¬ TransGen (Edge h) v u) → u ∈ n.prims := by
    intro u hu hmin
    have := hg.node.min_first hg.heap hu hmin
    simpa [Node.firsts, habs] using this
  obtain ⟨x, hx⟩ := List.exists_mem_of_ne_nil _ hne
  obtain ⟨u, hu, hmin, happ, π', rfl, hs'⟩ := SolvesN.unprogress hP
    ⟨x, (hg.node.first_min hg.heap (List.mem_append_left _ hx)).1⟩
    (fun u _ => hg.heap.irrefl) (fun u hu hmin => hg.node.prim u (hfirst u hu hmin)) hs
  exact ⟨u, hfirst u hu hmin, happ, π', rfl, hs'⟩

theorem Dead.no_sol (hP : P.WF) {h n π k} (hg : Good P cfg h n) (d : Dead P h n) :
    ¬ NodeSol P h n π k := by
  intro hs
  obtain ⟨u, hu, happ, -⟩ := hs.first hP hg d.1 d.2.1
  exact d.2.2 u hu happ

theorem AStep.complete (hP : P.WF) (hcfg : cfg.Ok) {h inst n u n' π k} (hg : Good P cfg h n)
    (a : AStep P cfg h inst n u n') (hf : Forced P h n u) (hs : NodeSol P h n π k) :
    ∃ π', π.Perm (taskOf h u :: π') ∧ NodeSol P h n' π' k := by
  obtain ⟨hu, -, hl, hst, -, happ⟩ := a.inv hP hcfg hg
  obtain ⟨hul, -⟩ := hg.node.first_min hg.heap (List.mem_append_left _ hu)
  unfold NodeSol
  rw [hl, hst]
  rcases hf with hf | ⟨habs, honly⟩
  · exact SolvesN.effectFree_front hP hul (hg.node.prim u hu) hf hs
  · obtain ⟨v, hv, happ', π', rfl, hs'⟩ := hs.first hP hg habs (List.ne_nil_of_mem hu)
    obtain rfl := honly v hv happ'
    exact ⟨π', .refl _, hs'⟩

/-- What a chain preserves. -/
theorem Chain.inv (hP : P.WF) (hcfg : cfg.Ok) {h i n us j n'} (hg : Good P cfg h n)
    (c : Chain P cfg h i n us j n') :
    Good P cfg h n' ∧
    (∀ π k, NodeSol P h n' π k → NodeSol P h n (us.map (taskOf h) ++ π) k) ∧
    (∀ π k, NodeSol P h n π k → ∃ π', π.Perm (us.map (taskOf h) ++ π') ∧ NodeSol P h n' π' k) ∧
    ((n.reachable = false → Dead P h n) → n'.reachable = false → Dead P h n') := by
  induction c with
  | nil => exact ⟨hg, fun _ _ h => h, fun π _ h => ⟨π, .refl _, h⟩, fun h => h⟩
  | step a f _ ih =>
    obtain ⟨hu, hg1, hl, hst, hr, happ⟩ := a.inv hP hcfg hg
    obtain ⟨h1, h2, h3, h4⟩ := ih hg1
    refine ⟨h1, fun π k hs => a.sound hP hcfg hg (h2 π k hs), fun π k hs => ?_, fun _ => h4 (by simp [hr])⟩
    obtain ⟨π1, hp1, hs1⟩ := a.complete hP hcfg hg f hs
    obtain ⟨π2, hp2, hs2⟩ := h3 π1 k hs1
    exact ⟨π2, hp1.trans (hp2.cons _), hs2⟩
  | flag d _ ih =>
    obtain ⟨h1, h2, h3, h4⟩ := ih hg.flag
    exact ⟨h1, h2, h3, fun _ => h4 (fun _ => d)⟩

theorem planCost_append (π ρ : List Nat) : P.planCost (π ++ ρ) = P.planCost π + P.planCost ρ := by
  simp [Problem.planCost]

theorem Chain.acc {h i n us j n'} (c : Chain P cfg h i n us j n') :
    j = i + us.length ∧ n'.depth = n.depth + us.length ∧
      n'.costs = n.costs + P.planCost (us.map (taskOf h)) ∧
      n'.mixed = n.mixed + P.planCost (us.map (taskOf h)) ∧
      ((n'.sol.reverse.filterMap fun s => if s.method = none then some s.task else none) =
        (n.sol.reverse.filterMap fun s => if s.method = none then some s.task else none) ++
          us.map (taskOf h)) ∧
      n'.sol.length = n.sol.length + us.length := by
  induction c with
  | nil => simp [Problem.planCost]
  | @step _ _ u _ _ _ _ a f _ ih =>
    obtain ⟨ps, hps, hsol, hd, hm, hc, hne⟩ := a.sol
    obtain ⟨h1, h2, h3, h4, h5, h6⟩ := ih
    have ht : taskOf h u = ps.task := by simp [taskOf, hps]
    refine ⟨by simp; omega, by simp; omega, ?_, ?_, ?_, ?_⟩
    · rw [h3, hc, List.map_cons, ht]; simp [Problem.planCost]; omega
    · rw [h4, hm, List.map_cons, ht]; simp [Problem.planCost]; omega
    · rw [h5, hsol, List.map_cons, ht]; simp
    · rw [h6, hsol]; simp; omega
  | flag d _ ih => exact ih

/-! ## `apply` and `decompose` yield chains -/

theorem mem_effIdx {h st prims start j} : j ∈ effIdx P h st prims start ↔
    j < prims.length ∧ start ≤ j ∧ P.EffectFree (taskOf h (prims[j]?.getD 0)) ∧
      P.Applicable (holds st) (taskOf h (prims[j]?.getD 0)) := by
  simp only [effIdx, List.mem_filter, List.mem_range, Bool.and_eq_true, decide_eq_true_eq,
    List.isEmpty_iff, isApplicable_iff, Problem.EffectFree]

/-- Specification of a recursive call of `apply`. -/
def AppOK (P : Problem) (cfg : Cfg) (app : Glob → Node → Nat → Option (Glob × Node)) : Prop :=
  ∀ g n i g' n' u, n.prims[i]? = some u → P.Applicable (holds n.state) (taskOf g.heap u) →
    app g n i = some (g', n') → g'.heap = g.heap ∧ (cfg.effLess = true → g'.eff = []) ∧
      ∃ n1 us, AStep P cfg g.heap g.inst n u n1 ∧ Chain P cfg g.heap (g.inst + 1) n1 us g'.inst n'

theorem oneModStep_chain {app} (happ : AppOK P cfg app) {g n g' n'} (heff : cfg.effLess = true → g.eff = [])
    (h : oneModStep P app g n = some (g', n')) :
    g'.heap = g.heap ∧ (cfg.effLess = true → g'.eff = []) ∧
      ∃ us, Chain P cfg g.heap g.inst n us g'.inst n' := by
  unfold oneModStep at h
  have hmem : ∀ j, j ∈ (List.range n.prims.length).filter
        (fun j => isApplicable P n.state (taskOf g.heap (n.prims[j]?.getD 0))) ↔
      ∃ u, n.prims[j]? = some u ∧ P.Applicable (holds n.state) (taskOf g.heap u) := by
    intro j
    simp only [List.mem_filter, List.mem_range, isApplicable_iff]
    constructor
    · rintro ⟨h1, h2⟩
      exact ⟨n.prims[j], List.getElem?_eq_getElem h1, by simpa [List.getElem?_eq_getElem h1] using h2⟩
    · rintro ⟨u, hu, ha⟩
      exact ⟨(List.getElem?_eq_some_iff.1 hu).1, by simpa [hu] using ha⟩
  split at h
  · rename_i hc
    simp only [Bool.and_eq_true, List.isEmpty_iff, Bool.not_eq_true', ← Bool.not_eq_true] at hc
    split at h
    · rename_i hnil
      simp only [Option.some.injEq, Prod.mk.injEq] at h
      obtain ⟨rfl, rfl⟩ := h
      refine ⟨rfl, heff, [], .flag ⟨hc.1, hc.2, fun v hv ha => ?_⟩ .nil⟩
      obtain ⟨j, hj⟩ := List.mem_iff_getElem?.1 hv
      have := (hmem j).2 ⟨v, hj, ha⟩
      rw [hnil] at this; simp at this
    · rename_i j hj
      obtain ⟨u, hu, ha⟩ := (hmem j).1 (by rw [hj]; simp)
      obtain ⟨h1, h2, n1, us, h3, h4⟩ := happ g n j g' n' u hu ha h
      refine ⟨h1, h2, u :: us, .step h3 (.inr ⟨hc.1, fun v hv hva => ?_⟩) h4⟩
      obtain ⟨l, hl⟩ := List.mem_iff_getElem?.1 hv
      have := (hmem l).2 ⟨v, hl, hva⟩
      rw [hj] at this
      obtain rfl : l = j := by simpa using this
      rw [hl] at hu; exact Option.some.inj hu
    · simp only [Option.some.injEq, Prod.mk.injEq] at h
      obtain ⟨rfl, rfl⟩ := h
      exact ⟨rfl, heff, [], .nil⟩
  · simp only [Option.some.injEq, Prod.mk.injEq] at h
    obtain ⟨rfl, rfl⟩ := h
    exact ⟨rfl, heff, [], .nil⟩

theorem post_chain {app} (happ : AppOK P cfg app) {fuel g n g' n'} {start : Nat}
    (heff : cfg.effLess = true → g.eff = effIdx P g.heap n.state n.prims start)
    (h : post P cfg app fuel g n = some (g', n')) :
    g'.heap = g.heap ∧ (cfg.effLess = true → g'.eff = []) ∧
      ∃ us, Chain P cfg g.heap g.inst n us g'.inst n' := by
  unfold post at h
  simp only [Option.bind_eq_bind, Option.bind_eq_some_iff] at h
  obtain ⟨⟨g1, n1⟩, h1, h⟩ := h
  have key : g1.heap = g.heap ∧ (cfg.effLess = true → g1.eff = []) ∧
      ∃ us, Chain P cfg g.heap g.inst n us g1.inst n1 := by
    unfold effPart at h1
    split at h1
    · rename_i he
      have heff := heff he
      cases hl : g.eff with
      | nil =>
        have hgf : g.getFirst = (g, none) := by simp [Glob.getFirst, hl]
        rw [hgf] at h1
        cases fuel with
        | zero => simp [effLoop] at h1
        | succ f =>
          simp only [effLoop, Option.some.injEq, Prod.mk.injEq] at h1
          obtain ⟨rfl, rfl⟩ := h1
          exact ⟨rfl, fun _ => hl, [], .nil⟩
      | cons j l =>
        have hgf : g.getFirst = ({ g with it := 0 }, some j) := by simp [Glob.getFirst, hl]
        rw [hgf] at h1
        cases fuel with
        | zero => simp [effLoop] at h1
        | succ f =>
          simp only [effLoop] at h1
          have hj : j ∈ effIdx P g.heap n.state n.prims start := by rw [← heff, hl]; simp
          obtain ⟨hjl, -, hfree, happl⟩ := mem_effIdx.1 hj
          have hju : n.prims[j]? = some n.prims[j] := List.getElem?_eq_getElem hjl
          rw [hju] at hfree happl
          split at h1
          · simp at h1
          · rename_i g2 n2 ha
            obtain ⟨e1, e2, n3, us, e3, e4⟩ := happ { g with it := 0 } _ _ _ _ _ hju happl ha
            have e2 := e2 he
            have hgn : g2.getNext.2 = none := by simp [Glob.getNext, e2]
            rw [hgn] at h1
            cases f with
            | zero => simp [effLoop] at h1
            | succ f =>
              simp only [effLoop, Option.some.injEq, Prod.mk.injEq] at h1
              obtain ⟨rfl, rfl⟩ := h1
              exact ⟨e1, fun _ => e2, _, .step e3 (.inl hfree) e4⟩
    · rename_i he
      simp only [Option.some.injEq, Prod.mk.injEq] at h1
      obtain ⟨rfl, rfl⟩ := h1
      exact ⟨rfl, fun h => absurd h he, [], .nil⟩
  obtain ⟨k1, k2, us, k3⟩ := key
  split at h
  · obtain ⟨m1, m2, vs, m3⟩ := oneModStep_chain happ k2 h
    refine ⟨by rw [m1, k1], m2, us ++ vs, k3.trans ?_⟩
    rw [← k1]; exact m3
  · simp only [Option.some.injEq, Prod.mk.injEq] at h
    obtain ⟨rfl, rfl⟩ := h
    exact ⟨k1, k2, us, k3⟩

theorem apply_chain (f : Nat) : AppOK P cfg (apply P cfg f) := by
  induction f with
  | zero => intro g n i g' n' u _ _ h; simp [apply] at h
  | succ f ih =>
    intro g n i g' n' u hu happ h
    simp only [apply, Option.bind_eq_bind, Option.bind_eq_some_iff] at h
    obtain ⟨⟨g1, n1⟩, h1, h⟩ := h
    obtain ⟨u', ps, pf, c, -, -, -, -, -, hheap, hinst, -, -, -, -, -, -, -, -, -, heff⟩ := applyBase_some h1
    obtain ⟨k1, k2, us, k3⟩ := post_chain ih (start := 0)
      (fun he => by rw [heff, if_pos he, hheap]) h
    refine ⟨by rw [k1, hheap], k2, n1, us, ⟨i, f, g, g1, rfl, rfl, hu, happ, h1⟩, ?_⟩
    rw [← hheap, ← hinst]; exact k3

theorem decompose_chain {f g n j m g' n'} (h : decompose P cfg f g n j m = some (g', n')) :
    ∃ g1 n1 us, decomposeBase P cfg g n j m = some (g1, n1) ∧ g'.heap = g1.heap ∧
      Chain P cfg g1.heap g1.inst n1 us g'.inst n' := by
  simp only [decompose, Option.bind_eq_bind, Option.bind_eq_some_iff] at h
  obtain ⟨⟨g1, n1⟩, h1, h⟩ := h
  obtain ⟨u, ps, c, -, -, -, hheap, hinst, -, -, -, -, -, -, -, -, -, heff⟩ := decomposeBase_some h1
  obtain ⟨k1, -, us, k3⟩ := post_chain (apply_chain f) (start := n.prims.length)
    (fun he => by rw [heff, if_pos he]) h
  exact ⟨g1, n1, us, h1, k1, k3⟩

end Verif.Prog
