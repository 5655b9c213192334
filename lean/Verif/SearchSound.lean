import Verif.SearchLoop

/-! # Soundness of the search for arbitrary visited lists and heuristics -/

namespace Verif.Prog

open Verif.Htn Verif.TaskCounter Relation

variable {P : Problem} {cfg : Cfg} {V F H : Type}
variable {E : Env V F H} {items : F → List SNode} {f0 : F} {eval : SNode → Option Int}

/-- All nodes in the fringe are proper. -/
structure FInv (P : Problem) (cfg : Cfg) (items : F → List SNode) (s : St V F H) : Prop where
  heap : HeapOK s.g.heap
  items_ok : ∀ x ∈ items s.fr, NInv P cfg s.g.heap x.node

theorem FInv.ext {s : St V F H} (I : FInv P cfg items s) {g' : Glob} (hp : s.g.heap <+: g'.heap)
    (hh' : HeapOK g'.heap) : FInv P cfg items { s with g := g' } :=
  ⟨hh', fun x hx => (I.items_ok x hx).ext hp hh'⟩

theorem child_sound (hF : FringeOK E f0 items eval) {s s' : St V F H} {par n2 r} (I : FInv P cfg items s)
    (hn : NInv P cfg s.g.heap n2) (h : child P E s par n2 = (s', r)) :
    FInv P cfg items s' ∧ s'.g = s.g ∧ ∀ x, r = some x → Solved P cfg s'.g.heap x.node := by
  have rest : ∀ x : SNode, x.node = n2 → ∀ y ∈ items (E.push s.fr x), NInv P cfg s.g.heap y.node := by
    intro x hx y hy
    rcases List.mem_cons.1 ((hF.push _ _).mem_iff.1 hy) with rfl | hy
    · exact hx ▸ hn
    · exact I.items_ok y hy
  simp only [child] at h
  split_ifs at h with h1 h2 h3 h4 h5 h6 h7 h8
  all_goals
    simp only [Prod.mk.injEq] at h
    obtain ⟨rfl, rfl⟩ := h
  all_goals
    first
    | refine ⟨⟨I.heap, I.items_ok⟩, rfl, ?_⟩
      simp
      done
    | refine ⟨⟨I.heap, rest _ rfl⟩, rfl, ?_⟩
      simp
      done
    | refine ⟨⟨I.heap, I.items_ok⟩, rfl, fun x hx => ?_⟩
      simp only [Option.some.injEq] at hx
      subst hx
      refine ⟨hn, ?_⟩
      simp_all

theorem applyAll_sound (hP : P.WF) (hcfg : cfg.Ok) (hF : FringeOK E f0 items eval) {fuel : Nat} {par : Node} :
    ∀ (is : List Nat) (s s' : St V F H) (r), NInv P cfg s.g.heap par → (∀ i ∈ is, i < par.prims.length) →
      FInv P cfg items s → applyAll P cfg E fuel par is s = some (s', r) →
      FInv P cfg items s' ∧ ∀ x, r = some x → Solved P cfg s'.g.heap x.node := by
  intro is
  induction is with
  | nil =>
    intro s s' r _ _ I h
    simp only [applyAll, Option.some.injEq, Prod.mk.injEq] at h
    obtain ⟨rfl, rfl⟩ := h
    exact ⟨I, by simp⟩
  | cons i is ih =>
    intro s s' r hpi hlt I h
    have hi := hlt i List.mem_cons_self
    have hiu : par.prims[i]? = some par.prims[i] := List.getElem?_eq_getElem hi
    have hlt' : ∀ i ∈ is, i < par.prims.length := fun j hj => hlt j (List.mem_cons_of_mem _ hj)
    unfold applyAll at h
    split at h
    · exact ih s s' r hpi hlt' I h
    · rename_i hna
      have ha : P.Applicable (holds par.state) (taskOf s.g.heap par.prims[i]) := by
        rw [hiu] at hna
        exact isApplicable_iff.1 (by simpa using hna)
      split at h
      · simp at h
      · rename_i g n2 happ
        obtain ⟨e1, e2, -, -⟩ := apply_step hP hcfg hpi hiu ha happ
        have I1 : FInv P cfg items { s with g := g } := I.ext (by rw [e1]) (by rw [e1]; exact I.heap)
        split at h
        · rename_i s1 x hc
          simp only [Option.some.injEq, Prod.mk.injEq] at h
          obtain ⟨rfl, rfl⟩ := h
          obtain ⟨d1, d2, d3⟩ := child_sound hF I1 (by simpa [e1] using e2) hc
          exact ⟨d1, d3⟩
        · rename_i s1 hc
          obtain ⟨d1, d2, d3⟩ := child_sound hF I1 (by simpa [e1] using e2) hc
          exact ih s1 s' r (by rw [d2]; simpa [e1] using hpi) hlt' d1 h

theorem decAll_sound (hP : P.WF) (hcfg : cfg.Ok) (hF : FringeOK E f0 items eval) {fuel : Nat} {par : Node}
    {d u t : Nat} (hu : par.abs[d]? = some u) :
    ∀ (ms : List Nat) (s s' : St V F H) (r), NInv P cfg s.g.heap par → taskOf s.g.heap u = t →
      (∀ m ∈ ms, m ∈ methodsOf P t) →
      FInv P cfg items s → decAll P cfg E fuel par d ms s = some (s', r) →
      FInv P cfg items s' ∧ ∀ x, r = some x → Solved P cfg s'.g.heap x.node := by
  intro ms
  induction ms with
  | nil =>
    intro s s' r _ _ _ I h
    simp only [decAll, Option.some.injEq, Prod.mk.injEq] at h
    obtain ⟨rfl, rfl⟩ := h
    exact ⟨I, by simp⟩
  | cons m ms ih =>
    intro s s' r hpi ht hms I h
    have hm : m ∈ methodsOf P (taskOf s.g.heap u) := by rw [ht]; exact hms m List.mem_cons_self
    have hul : u < s.g.heap.length :=
      hpi.good.node.lt u (List.mem_append_right _ (List.mem_of_getElem? hu))
    unfold decAll at h
    split at h
    · simp at h
    · rename_i g n2 hdec
      obtain ⟨e0, e1, e2, -, -⟩ := decompose_step hP hcfg hpi hu hm hdec
      have I1 : FInv P cfg items { s with g := g } := I.ext e0 e1
      split at h
      · rename_i s1 x hc
        simp only [Option.some.injEq, Prod.mk.injEq] at h
        obtain ⟨rfl, rfl⟩ := h
        obtain ⟨d1, d2, d3⟩ := child_sound hF I1 e2 hc
        exact ⟨d1, d3⟩
      · rename_i s1 hc
        obtain ⟨d1, d2, d3⟩ := child_sound hF I1 e2 hc
        have hp : s.g.heap <+: s1.g.heap := by rw [d2]; exact e0
        exact ih s1 s' r (hpi.ext hp d1.heap) (by rw [prefix_taskOf hp hul, ht])
          (fun m hm => hms m (List.mem_cons_of_mem _ hm)) d1 h

theorem loop_sound (hP : P.WF) (hcfg : cfg.Ok) (hF : FringeOK E f0 items eval) :
    ∀ (fuel : Nat) (s : St V F H) (n s'), FInv P cfg items s →
      loop P cfg E fuel s = some (.solved n, s') → Solved P cfg s'.g.heap n.node := by
  intro fuel
  induction fuel with
  | zero => intro s n s' _ h; simp [loop] at h
  | succ fuel ih =>
    intro s n s' I h
    unfold loop at h
    split at h
    · simp at h
    · rename_i x fr' hpop
      have hperm := hF.pop_some _ _ _ hpop
      have hx := I.items_ok x (hperm.mem_iff.2 List.mem_cons_self)
      have I1 : FInv P cfg items { s with fr := fr', vis := (popCheck E s x).1 } :=
        ⟨I.heap, fun y hy => I.items_ok y (hperm.mem_iff.2 (List.mem_cons_of_mem _ hy))⟩
      split at h
      · exact ih _ _ _ I1 h
      · unfold afterCheck at h
        split at h
        · rename_i hg
          simp only [Option.some.injEq, Prod.mk.injEq, Result.solved.injEq] at h
          obtain ⟨rfl, rfl⟩ := h
          simp only [Bool.and_eq_true] at hg
          exact ⟨hx, hg.2⟩
        · revert h
          generalize hexp : expand P cfg E fuel x.node
            { s with fr := fr', vis := (popCheck E s x).1 } = ex
          intro h
          have hex : ∀ s1 r, ex = some (s1, r) → FInv P cfg items s1 ∧
              ∀ y, r = some y → Solved P cfg s1.g.heap y.node := by
            rintro s1 r rfl
            unfold expand at hexp
            split at hexp
            · exact applyAll_sound hP hcfg hF _ { s with fr := fr', vis := (popCheck E s x).1 } s1 r hx
                (fun i hi => List.mem_range.1 hi) I1 hexp
            · rename_i habs
              have hdl : E.rnd s.iter % x.node.abs.length < x.node.abs.length :=
                Nat.mod_lt _ (List.length_pos_of_ne_nil (by simpa using habs))
              have hdu := List.getElem?_eq_getElem hdl
              simp only [hdu, Option.getD_some] at hexp
              exact decAll_sound hP hcfg hF hdu _ { s with fr := fr', vis := (popCheck E s x).1 } s1 r hx
                rfl (fun m hm => hm) I1 hexp
          unfold afterExpand at h
          split at h
          · simp at h
          · rename_i s1 y
            simp only [Option.some.injEq, Prod.mk.injEq, Result.solved.injEq] at h
            obtain ⟨rfl, rfl⟩ := h
            exact (hex _ _ rfl).2 _ rfl
          · rename_i s1
            split at h
            · simp at h
            · exact ih { s1 with iter := s1.iter + 1 } _ _
                ⟨(hex _ _ rfl).1.heap, (hex _ _ rfl).1.items_ok⟩ h

theorem search_sound (hP : P.WF) (hcfg : cfg.Ok) (hF : FringeOK E f0 items eval) {fuel v0 hs0 n s'}
    (h : search P cfg E fuel v0 f0 hs0 = some (.solved n, s')) : Solved P cfg s'.g.heap n.node := by
  obtain ⟨hn, -⟩ := init_ninv (cfg := cfg) hP
  refine loop_sound hP hcfg hF fuel _ n s' ⟨hn.good.heap, fun x hx => ?_⟩ h
  have hperm := hF.push f0 (rootNode P cfg E.hLength)
  rw [hF.empty] at hperm
  obtain rfl := List.mem_singleton.1 (hperm.mem_iff.1 hx)
  exact hn

/-- A goal node has the empty plan as solution. -/
theorem Solved.sol {h n} (hs : Solved P cfg h n) : NodeSol P h n [] 0 := by
  obtain ⟨hn, hg⟩ := hs
  obtain ⟨hf, hgs⟩ := isGoal_iff.1 hg
  have hl : live h n = ∅ := by
    ext v; rw [mem_live hn.good.heap hn.good.node.lt, hf]; simp [ReachFrom]
  unfold NodeSol
  rw [hl]
  exact solvesN_empty.2 ⟨rfl, rfl, hgs⟩

theorem Solved.isSolution {h n} (hs : Solved P cfg h n) :
    IsSolutionN P (planOf n.sol) (decsOf n.sol) := by
  have := hs.1.sound [] 0 hs.sol
  simpa using this

end Verif.Prog
