import Verif.Extract
import Verif.SearchSound

/-! # The node returned by the search is reached by the progression -/

namespace Verif.Prog

open Verif.Htn Verif.TaskCounter Relation

variable {P : Problem} {cfg : Cfg} {V F H : Type}
variable {E : Env V F H} {items : F → List SNode} {f0 : F} {eval : SNode → Option Int}

/-- All nodes in the fringe are reached. -/
def RInv (P : Problem) (cfg : Cfg) (items : F → List SNode) (s : St V F H) : Prop :=
  ∀ x ∈ items s.fr, Reached P cfg s.g x.node

/-- What is shown of a returned node. -/
def RSolved (P : Problem) (cfg : Cfg) (g : Glob) (n : Node) : Prop :=
  Reached P cfg g n ∧ isGoal P n = true

theorem child_reached (hF : FringeOK E f0 items eval) {s s' : St V F H} {par n2 r}
    (I : RInv P cfg items s) (hn : Reached P cfg s.g n2) (h : child P E s par n2 = (s', r)) :
    RInv P cfg items s' ∧ s'.g = s.g ∧ ∀ x, r = some x → RSolved P cfg s'.g x.node := by
  have rest : ∀ x : SNode, x.node = n2 → ∀ y ∈ items (E.push s.fr x), Reached P cfg s.g y.node := by
    intro x hx y hy
    rcases List.mem_cons.1 ((hF.push _ _).mem_iff.1 hy) with rfl | hy
    · exact hx ▸ hn
    · exact I y hy
  simp only [child] at h
  split_ifs at h with h1 h2 h3 h4 h5 h6 h7 h8
  all_goals
    simp only [Prod.mk.injEq] at h
    obtain ⟨rfl, rfl⟩ := h
  all_goals
    first
    | refine ⟨I, rfl, ?_⟩
      simp
      done
    | refine ⟨rest _ rfl, rfl, ?_⟩
      simp
      done
    | refine ⟨I, rfl, fun x hx => ?_⟩
      simp only [Option.some.injEq] at hx
      subst hx
      refine ⟨hn, ?_⟩
      simp_all

theorem applyAll_reached (hF : FringeOK E f0 items eval) {fuel : Nat} {par : Node} :
    ∀ (is : List Nat) (s s' : St V F H) (r), Reached P cfg s.g par → (∀ i ∈ is, i < par.prims.length) →
      RInv P cfg items s → applyAll P cfg E fuel par is s = some (s', r) →
      RInv P cfg items s' ∧ ∀ x, r = some x → RSolved P cfg s'.g x.node := by
  intro is
  induction is with
  | nil =>
    intro s s' r _ _ I h
    simp only [applyAll, Option.some.injEq, Prod.mk.injEq] at h
    obtain ⟨rfl, rfl⟩ := h
    exact ⟨I, by simp⟩
  | cons i is ih =>
    intro s s' r hpi hlt I h
    have hi := hlt i List.mem_cons_self
    have hiu : par.prims[i]? = some par.prims[i] := List.getElem?_eq_getElem hi
    have hlt' : ∀ i ∈ is, i < par.prims.length := fun j hj => hlt j (List.mem_cons_of_mem _ hj)
    unfold applyAll at h
    split at h
    · exact ih s s' r hpi hlt' I h
    · rename_i hna
      have ha : isApplicable P par.state (taskOf s.g.heap par.prims[i]) = true := by
        rw [hiu] at hna
        simpa using hna
      split at h
      · simp at h
      · rename_i g n2 happ
        have I1 : RInv P cfg items { s with g := g } := fun x hx => .otherApp (I x hx) hpi hiu ha happ
        have hn2 : Reached P cfg g n2 := .app hpi hiu ha happ
        split at h
        · rename_i s1 x hc
          simp only [Option.some.injEq, Prod.mk.injEq] at h
          obtain ⟨rfl, rfl⟩ := h
          obtain ⟨d1, d2, d3⟩ := child_reached hF I1 hn2 hc
          exact ⟨d1, d3⟩
        · rename_i s1 hc
          obtain ⟨d1, d2, d3⟩ := child_reached hF I1 hn2 hc
          exact ih s1 s' r (by rw [d2]; exact .otherApp hpi hpi hiu ha happ) hlt' d1 h

theorem decAll_reached (hP : P.WF) (hcfg : cfg.Ok) (hF : FringeOK E f0 items eval) {fuel : Nat} {par : Node}
    {d u t : Nat} (hu : par.abs[d]? = some u) :
    ∀ (ms : List Nat) (s s' : St V F H) (r), Reached P cfg s.g par → taskOf s.g.heap u = t →
      (∀ m ∈ ms, m ∈ methodsOf P t) →
      RInv P cfg items s → decAll P cfg E fuel par d ms s = some (s', r) →
      RInv P cfg items s' ∧ ∀ x, r = some x → RSolved P cfg s'.g x.node := by
  intro ms
  induction ms with
  | nil =>
    intro s s' r _ _ _ I h
    simp only [decAll, Option.some.injEq, Prod.mk.injEq] at h
    obtain ⟨rfl, rfl⟩ := h
    exact ⟨I, by simp⟩
  | cons m ms ih =>
    intro s s' r hpi ht hms I h
    have hm : m ∈ methodsOf P (taskOf s.g.heap u) := by rw [ht]; exact hms m List.mem_cons_self
    have hni := hpi.ninv hP hcfg
    have hul : u < s.g.heap.length :=
      hni.good.node.lt u (List.mem_append_right _ (List.mem_of_getElem? hu))
    unfold decAll at h
    split at h
    · simp at h
    · rename_i g n2 hdec
      obtain ⟨e0, -⟩ := decompose_step hP hcfg hni hu hm hdec
      have I1 : RInv P cfg items { s with g := g } := fun x hx => .otherDec (I x hx) hpi hu hm hdec
      have hn2 : Reached P cfg g n2 := .dec hpi hu hm hdec
      split at h
      · rename_i s1 x hc
        simp only [Option.some.injEq, Prod.mk.injEq] at h
        obtain ⟨rfl, rfl⟩ := h
        obtain ⟨d1, d2, d3⟩ := child_reached hF I1 hn2 hc
        exact ⟨d1, d3⟩
      · rename_i s1 hc
        obtain ⟨d1, d2, d3⟩ := child_reached hF I1 hn2 hc
        exact ih s1 s' r (by rw [d2]; exact .otherDec hpi hpi hu hm hdec)
          (by rw [d2]; exact (prefix_taskOf e0 hul).trans ht)
          (fun m hm => hms m (List.mem_cons_of_mem _ hm)) d1 h

theorem loop_reached (hP : P.WF) (hcfg : cfg.Ok) (hF : FringeOK E f0 items eval) :
    ∀ (fuel : Nat) (s : St V F H) (n s'), RInv P cfg items s →
      loop P cfg E fuel s = some (.solved n, s') → RSolved P cfg s'.g n.node := by
  intro fuel
  induction fuel with
  | zero => intro s n s' _ h; simp [loop] at h
  | succ fuel ih =>
    intro s n s' I h
    unfold loop at h
    split at h
    · simp at h
    · rename_i x fr' hpop
      have hperm := hF.pop_some _ _ _ hpop
      have hx := I x (hperm.mem_iff.2 List.mem_cons_self)
      have I1 : RInv P cfg items { s with fr := fr', vis := (popCheck E s x).1 } :=
        fun y hy => I y (hperm.mem_iff.2 (List.mem_cons_of_mem _ hy))
      split at h
      · exact ih _ _ _ I1 h
      · unfold afterCheck at h
        split at h
        · rename_i hg
          simp only [Option.some.injEq, Prod.mk.injEq, Result.solved.injEq] at h
          obtain ⟨rfl, rfl⟩ := h
          simp only [Bool.and_eq_true] at hg
          exact ⟨hx, hg.2⟩
        · revert h
          generalize hexp : expand P cfg E fuel x.node
            { s with fr := fr', vis := (popCheck E s x).1 } = ex
          intro h
          have hex : ∀ s1 r, ex = some (s1, r) → RInv P cfg items s1 ∧
              ∀ y, r = some y → RSolved P cfg s1.g y.node := by
            rintro s1 r rfl
            unfold expand at hexp
            split at hexp
            · exact applyAll_reached hF _ { s with fr := fr', vis := (popCheck E s x).1 } s1 r hx
                (fun i hi => List.mem_range.1 hi) I1 hexp
            · rename_i habs
              have hdl : E.rnd s.iter % x.node.abs.length < x.node.abs.length :=
                Nat.mod_lt _ (List.length_pos_of_ne_nil (by simpa using habs))
              have hdu := List.getElem?_eq_getElem hdl
              simp only [hdu, Option.getD_some] at hexp
              exact decAll_reached hP hcfg hF hdu _ { s with fr := fr', vis := (popCheck E s x).1 } s1 r hx
                rfl (fun m hm => hm) I1 hexp
          unfold afterExpand at h
          split at h
          · simp at h
          · rename_i s1 y
            simp only [Option.some.injEq, Prod.mk.injEq, Result.solved.injEq] at h
            obtain ⟨rfl, rfl⟩ := h
            exact (hex _ _ rfl).2 _ rfl
          · rename_i s1
            split at h
            · simp at h
            · exact ih { s1 with iter := s1.iter + 1 } _ _ (hex _ _ rfl).1 h

/-- The node returned by the search is reached. -/
theorem search_reached (hP : P.WF) (hcfg : cfg.Ok) (hF : FringeOK E f0 items eval) {fuel v0 hs0 n s'}
    (h : search P cfg E fuel v0 f0 hs0 = some (.solved n, s')) :
    Reached P cfg s'.g n.node ∧ isGoal P n.node = true := by
  refine loop_reached hP hcfg hF fuel _ n s' (fun x hx => ?_) h
  have hperm := hF.push f0 (rootNode P cfg E.hLength)
  rw [hF.empty] at hperm
  obtain rfl := List.mem_singleton.1 (hperm.mem_iff.1 hx)
  exact .init

end Verif.Prog
