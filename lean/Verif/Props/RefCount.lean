import Verif.RefCount
import Verif.Props.Example

/-! # Properties of the reference counts: C40

The events are arbitrary: any live node may be expanded (by an applicable action or by a method for one of its first tasks, with
the automatic progression of effect-free and forced actions, whose intermediate nodes are deleted), and any live node may be
deleted, in every order.  As every prefix of a sequence of events is such a sequence, the statements hold after every event. -/

namespace Verif.Props

open Verif.Htn Verif.Prog Relation

variable {P : Problem} {cfg : Cfg}

/-- **C40.**  Take any sequence of expansions and deletions.  With the counts the same nodes result, without access to a freed
step and without freeing one twice (otherwise the outcome of `evRunM` were `none`).  Then a plan step is allocated if and only if a
live node reaches it, a solution step if and only if it is in the solution of a live node. -/
theorem C40_refcount (hP : P.WF) (hcfg : cfg.Ok) {fuel : Nat} {es : List Ev} {g : Glob} {N : List Node}
    (h : evRun P cfg fuel es ((initNode P cfg).1, [(initNode P cfg).2]) = some (g, N)) :
    ∃ M, evRunM P cfg fuel es ((initNode P cfg).1, [(initNode P cfg).2], initMem) = some (g, N, M) ∧
      (∀ u, M.step u ≠ none ↔ ∃ n ∈ N, ReachFrom g.heap n.firsts u) ∧
      (∀ i, M.sol i ≠ none ↔ ∃ n ∈ N, ∃ s ∈ n.sol, s.inst = i) := by
  have r0 : NInv P cfg (initNode P cfg).1.heap (initNode P cfg).2 := (Reached.init (P := P) (cfg := cfg)).ninv hP hcfg
  obtain ⟨M, h1, hh, hI⟩ := evRun_counts hP hcfg es _ _ initMem g N r0.good.heap (by simpa using r0) initMem_inv h
  refine ⟨M, h1, fun u => ?_, fun i => ?_⟩
  · obtain ⟨L, k1, -⟩ := hI.steps
    obtain ⟨rank, hr⟩ := hh.acyc
    rw [k1.live (rank := rank) (fun a b hb => hr a b (mem_succsOf.1 hb))]
    constructor
    · rintro ⟨x, hx, hp⟩
      obtain ⟨n, hn, hx⟩ := List.mem_flatMap.1 hx
      exact ⟨n, hn, x, hx, ReflTransGen.mono (fun a b hb => mem_succsOf.1 hb) _ _ hp⟩
    · rintro ⟨n, hn, x, hx, hp⟩
      exact ⟨x, List.mem_flatMap.2 ⟨n, hn, hx⟩, ReflTransGen.mono (fun a b hb => mem_succsOf.2 hb) _ _ hp⟩
  · obtain ⟨L, k1, -⟩ := hI.sols
    have hL : M.sol i ≠ none ↔ i ∈ L := by
      constructor
      · intro hn
        by_contra hu
        exact hn (k1.dom i hu)
      · intro hu
        rw [k1.cnt i hu]
        simp
    constructor
    · intro hi
      obtain ⟨x, hx, hp⟩ := (k1.live (rank := id) hI.prev i).1 hi
      obtain ⟨n, hn, hx⟩ := List.mem_flatMap.1 hx
      have key : ∀ (l : List SolStep) (y : Nat), SolChain M.prev l → y ∈ (l.head?.map SolStep.inst).toList →
          ReflTransGen (fun a b => b ∈ M.prev a) y i → ∃ s ∈ l, s.inst = i := by
        intro l
        induction l with
        | nil => intro y _ hy; simp at hy
        | cons s l ih =>
          intro y hc hy hp
          obtain rfl : y = s.inst := by simpa using hy
          rcases ReflTransGen.cases_head hp with e | ⟨z, hz, hp⟩
          · exact ⟨s, List.mem_cons_self, e⟩
          · rw [hc.1] at hz
            obtain ⟨t, ht, e⟩ := ih z hc.2 hz hp
            exact ⟨t, List.mem_cons_of_mem _ ht, e⟩
      obtain ⟨s, hs, e⟩ := key n.sol x (hI.chain n hn) hx hp
      exact ⟨n, hn, s, hs, e⟩
    · rintro ⟨n, hn, s, hs, rfl⟩
      rw [hL]
      exact chain_mem k1.closed n.sol (hI.chain n hn) (fun u hu => k1.roots u (List.mem_flatMap.2 ⟨n, hn, hu⟩)) s hs

/-- **C40.**  `pointersToMe` is the number of pointers from live nodes and allocated steps. -/
theorem C40_count (hP : P.WF) (hcfg : cfg.Ok) {fuel : Nat} {es : List Ev} {g : Glob} {N : List Node} {M : Mem}
    (h : evRun P cfg fuel es ((initNode P cfg).1, [(initNode P cfg).2]) = some (g, N))
    (hM : evRunM P cfg fuel es ((initNode P cfg).1, [(initNode P cfg).2], initMem) = some (g, N, M)) {u : Nat} {k : Int}
    (hu : M.step u = some k) :
    k = (((N.map fun n => n.prims.count u + n.abs.count u).sum +
      (((List.range g.heap.length).filter fun v => (M.step v).isSome).map fun v => (succsOf g.heap v).count u).sum : Nat) : Int) ∧
      0 < k := by
  have r0 : NInv P cfg (initNode P cfg).1.heap (initNode P cfg).2 := (Reached.init (P := P) (cfg := cfg)).ninv hP hcfg
  obtain ⟨M', h1, -, hI⟩ := evRun_counts hP hcfg es _ _ initMem g N r0.good.heap (by simpa using r0) initMem_inv h
  obtain rfl : M = M' := by
    rw [hM] at h1
    simpa using h1
  obtain ⟨L, k1, k2⟩ := hI.steps
  have hmem : ∀ v, v ∈ L ↔ (M.step v).isSome = true := by
    intro v
    constructor
    · intro hv
      rw [k1.cnt v hv]
      rfl
    · intro hv
      by_contra hv'
      rw [k1.dom v hv'] at hv
      simp at hv
  have huL : u ∈ L := (hmem u).2 (by rw [hu]; rfl)
  have e1 : (N.flatMap Node.firsts).count u = (N.map fun n => n.prims.count u + n.abs.count u).sum := by
    rw [List.count_flatMap]
    congr 1
    refine List.map_congr_left fun n _ => ?_
    simp [Node.firsts]
  have e2 : ∑ v ∈ L, (succsOf g.heap v).count u =
      (((List.range g.heap.length).filter fun v => (M.step v).isSome).map fun v => (succsOf g.heap v).count u).sum := by
    rw [← List.sum_toFinset _ ((List.nodup_range).filter _)]
    refine Finset.sum_congr ?_ fun _ _ => rfl
    ext v
    simp only [List.mem_toFinset, List.mem_filter, List.mem_range]
    exact ⟨fun hv => ⟨k2 v hv, (hmem v).1 hv⟩, fun hv => (hmem v).2 hv.2⟩
  have hk := k1.cnt u huL
  rw [hu, Option.some.injEq] at hk
  have hp := k1.pos u huL
  rw [e1, e2] at hk hp
  exact ⟨hk, by rw [hk]; exact_mod_cast hp⟩

/-- **C40.**  Nothing remains when all nodes are deleted. -/
theorem C40_no_leak (hP : P.WF) (hcfg : cfg.Ok) {fuel : Nat} {es : List Ev} {g : Glob} {M : Mem}
    (h : evRun P cfg fuel es ((initNode P cfg).1, [(initNode P cfg).2]) = some (g, []))
    (hM : evRunM P cfg fuel es ((initNode P cfg).1, [(initNode P cfg).2], initMem) = some (g, [], M)) :
    (∀ u, M.step u = none) ∧ ∀ i, M.sol i = none := by
  obtain ⟨M', h1, h2, h3⟩ := C40_refcount hP hcfg h
  obtain rfl : M = M' := by
    rw [hM] at h1
    simpa using h1
  refine ⟨fun u => ?_, fun i => ?_⟩
  · by_contra hn
    obtain ⟨n, hn, -⟩ := (h2 u).1 hn
    simp at hn
  · by_contra hn
    obtain ⟨n, hn, -⟩ := (h3 i).1 hn
    simp at hn

/-- **C40.**  Deleting a node frees exactly the plan steps that it reaches and no other live node reaches. -/
theorem C40_delete (hP : P.WF) (hcfg : cfg.Ok) {fuel : Nat} {es : List Ev} {g : Glob} {N : List Node} {M : Mem}
    (h : evRun P cfg fuel es ((initNode P cfg).1, [(initNode P cfg).2]) = some (g, N))
    (hM : evRunM P cfg fuel es ((initNode P cfg).1, [(initNode P cfg).2], initMem) = some (g, N, M)) {k : Nat} {n : Node}
    (hk : N[k]? = some n) :
    ∃ M', M.release g n = some M' ∧ ∀ u, (M.step u ≠ none ∧ M'.step u = none) ↔
      ReachFrom g.heap n.firsts u ∧ ∀ x ∈ N.eraseIdx k, ¬ ReachFrom g.heap x.firsts u := by
  have hkl : k < N.length := (List.getElem?_eq_some_iff.1 hk).1
  have app : ∀ (es : List Ev) (s : Glob × List Node) (g : Glob) (N : List Node), evRun P cfg fuel es s = some (g, N) → k < N.length →
      evRun P cfg fuel (es ++ [.del k]) s = some (g, N.eraseIdx k) := by
    intro es
    induction es with
    | nil =>
      rintro ⟨g0, N0⟩ g N h hk
      rw [evRun, Option.some.injEq, Prod.mk.injEq] at h
      obtain ⟨rfl, rfl⟩ := h
      simp [evRun, hk]
    | cons e es ih =>
      rintro ⟨g0, N0⟩ g N h hk
      rw [List.cons_append]
      cases e with
      | app a i =>
        rw [evRun] at h ⊢
        split at h
        · simp at h
        · split at h
          · simp at h
          · split_ifs at h with hc
            split at h
            · simp at h
            · rename_i h1 _ _ h2 _ _ _ h3
              simp only [h1, h2, h3, hc, if_true]
              exact ih _ _ _ h hk
      | dec a j m =>
        rw [evRun] at h ⊢
        split at h
        · simp at h
        · split at h
          · simp at h
          · split_ifs at h with hc
            split at h
            · simp at h
            · rename_i h1 _ _ h2 _ _ _ h3
              simp only [h1, h2, h3, hc, if_true]
              exact ih _ _ _ h hk
      | del a =>
        rw [evRun] at h ⊢
        split_ifs at h ⊢ with hc
        exact ih _ _ _ h hk
  have appM : ∀ (es : List Ev) (s : Glob × List Node × Mem) (g : Glob) (N : List Node) (M : Mem), evRunM P cfg fuel es s = some (g, N, M) →
      evRunM P cfg fuel (es ++ [.del k]) s = evRunM P cfg fuel [.del k] (g, N, M) := by
    intro es
    induction es with
    | nil =>
      intro s g N M h
      rw [evRunM, Option.some.injEq] at h
      rw [h]
      rfl
    | cons e es ih =>
      rintro ⟨g0, N0, M0⟩ g N M h
      rw [List.cons_append]
      cases e with
      | app a i =>
        rw [evRunM] at h ⊢
        split at h
        · simp at h
        · split at h
          · simp at h
          · exact ih _ _ _ _ h
      | dec a j m =>
        rw [evRunM] at h ⊢
        split at h
        · simp at h
        · split at h
          · simp at h
          · exact ih _ _ _ _ h
      | del a =>
        rw [evRunM] at h ⊢
        split at h
        · simp at h
        · split at h
          · simp at h
          · exact ih _ _ _ _ h
  obtain ⟨M1, a1, a2, -⟩ := C40_refcount hP hcfg h
  obtain rfl : M = M1 := by
    rw [hM] at a1
    simpa using a1
  obtain ⟨M2, b1, b2, -⟩ := C40_refcount hP hcfg (app es _ g N h hkl)
  rw [appM es _ g N M hM, evRunM, hk] at b1
  simp only at b1
  cases hr : M.release g n with
  | none => rw [hr] at b1; simp at b1
  | some M' =>
    rw [hr] at b1
    simp only [evRunM, Option.some.injEq, Prod.mk.injEq, true_and] at b1
    subst b1
    refine ⟨M', rfl, fun u => ?_⟩
    have hb := not_iff_not.2 (b2 u)
    rw [not_not] at hb
    rw [a2, hb]
    push Not
    constructor
    · rintro ⟨⟨x, hx, hp⟩, h2⟩
      refine ⟨?_, h2⟩
      rw [(eraseIdx_perm hk).mem_iff] at hx
      rcases List.mem_cons.1 hx with rfl | hx
      · exact hp
      · exact absurd hp (h2 x hx)
    · rintro ⟨h1, h2⟩
      exact ⟨⟨n, List.mem_of_getElem? hk, h1⟩, h2⟩

/-- A run with decompositions that share steps, automatic progression and a deletion. -/
example : ∃ g N M, evRun exP exCfg2 50 [.dec 0 0 0, .dec 0 0 1, .dec 1 0 2, .del 2] ((initNode exP exCfg2).1, [(initNode exP exCfg2).2]) = some (g, N) ∧
    evRunM exP exCfg2 50 [.dec 0 0 0, .dec 0 0 1, .dec 1 0 2, .del 2] ((initNode exP exCfg2).1, [(initNode exP exCfg2).2], initMem) = some (g, N, M) ∧
    N.length = 3 := by
  cases h : evRun exP exCfg2 50 [.dec 0 0 0, .dec 0 0 1, .dec 1 0 2, .del 2] ((initNode exP exCfg2).1, [(initNode exP exCfg2).2]) with
  | none =>
    exfalso
    have : (evRun exP exCfg2 50 [.dec 0 0 0, .dec 0 0 1, .dec 1 0 2, .del 2] ((initNode exP exCfg2).1, [(initNode exP exCfg2).2])).isSome = true := by
      decide +kernel
    rw [h] at this
    simp at this
  | some r =>
    obtain ⟨g, N⟩ := r
    obtain ⟨M, h1, -⟩ := C40_refcount exP_wf exCfg2_ok h
    refine ⟨g, N, M, rfl, h1, ?_⟩
    have : (evRun exP exCfg2 50 [.dec 0 0 0, .dec 0 0 1, .dec 1 0 2, .del 2] ((initNode exP exCfg2).1, [(initNode exP exCfg2).2])).map
        (fun r => r.2.length) = some 3 := by decide +kernel
    rw [h] at this
    simpa using this

end Verif.Props
